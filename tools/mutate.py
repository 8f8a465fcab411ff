#!/usr/bin/env python3
"""Run wrong programs against the theorems.
usage: mutate.py MUTANTS.json   (list of {"file","definition","old","new","edit","claim","expect"})
Works in a scratch copy (/tmp/mut), appends one line per mutant to /tmp/mut.log.jsonl."""
import json, os, re, subprocess, sys, shutil, time
SRC='/verif/lean'; DST='/tmp/mut'
def sync():
    os.makedirs(DST, exist_ok=True)
    subprocess.check_call(['rsync','-a','--delete',SRC+'/',DST+'/']) if shutil.which('rsync') else subprocess.check_call('rm -rf %s && cp -a %s %s'%(DST,SRC,DST),shell=True)
def decl_at(path, line):
    ls=open(path).read().split('\n')
    ns=[]
    for i in range(min(line,len(ls))-1,-1,-1):
        m=re.match(r'\s*(?:@\[.*\]\s*)?(?:private |protected )?(theorem|def|instance|example|lemma|structure)\s*(\S*)',ls[i])
        if m: return '%s %s'%(m.group(1),m.group(2)) if m.group(1)!='theorem' else m.group(2)
    return '?'
def imports(path):
    return re.findall(r'^import (Verif\.\S+)',open(path).read(),re.M)
def main():
    muts=json.load(open(sys.argv[1]))
    sync()
    mods={}
    for root,_,fs in os.walk(DST+'/Verif'):
        for f in fs:
            if f.endswith('.lean'):
                p=os.path.join(root,f); m=os.path.relpath(p,DST)[:-5].replace('/','.'); mods[m]=p
    for mu in muts:
        p=os.path.join(DST,mu['file']); orig=open(os.path.join(SRC,mu['file'])).read()
        if orig.count(mu['old'])!=1:
            print('BAD MUTANT',mu['definition'],orig.count(mu['old'])); continue
        open(p,'w').write(orig.replace(mu['old'],mu['new']))
        t=time.time()
        r=subprocess.run(['lake','build'],cwd=DST,capture_output=True,text=True)
        out=r.stdout+r.stderr
        open(p,'w').write(orig)
        failed=[];fm=set()
        for m in re.finditer(r'error: (Verif/\S+\.lean):(\d+):\d+',out):
            path=os.path.join(DST,m.group(1))
            d=decl_at(path,int(m.group(2)))
            if d not in failed: failed.append(d)
            fm.add(m.group(1)[:-5].replace('/','.'))
        # property theorems in modules that import a failed module
        bad=set(fm); ch=True
        while ch:
            ch=False
            for m,pp in mods.items():
                if m not in bad and any(i in bad for i in imports(pp)): bad.add(m); ch=True
        blocked=[]
        for m in sorted(bad):
            if '.Props.' in m and m not in fm:
                blocked+=re.findall(r'^theorem (C\d\d_\S+)',open(mods[m]).read(),re.M)
        rec={'definition':mu['definition'],'edit':mu['edit'],'claim':mu['claim'],'failed':failed,'failed_modules':sorted(fm),'blocked':blocked,'ok':r.returncode==0,'secs':round(time.time()-t)}
        print(mu['definition'],'|',mu['edit'],'| SURVIVED' if r.returncode==0 else '| killed by %s'%failed[:4],rec['secs'],flush=True)
        open('/tmp/mut.log.jsonl','a').write(json.dumps(rec)+'\n')
main()
