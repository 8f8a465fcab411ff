#!/usr/bin/env python3
"""Convert the raw records of mutate.py (/tmp/mut.log.jsonl) into /verif/seeded/LOG.jsonl (appends records not present yet)."""
import json, os
dst='/verif/seeded/LOG.jsonl'
seen=set()
for l in open(dst):
    if l.strip():
        d=json.loads(l); seen.add((d['definition'],d['edit']))
TIGHT={('surface','edges counted twice'):['C36_surface_exact (added: genus, punctures and chi of each component, the old theorem only said they are flip invariants)']}
with open(dst,'a') as f:
    for l in open('/tmp/mut.log.jsonl'):
        d=json.loads(l); k=(d['definition'],d['edit'])
        if k in seen: continue
        seen.add(k)
        f.write(json.dumps({'definition':d['definition'],'edit':d['edit'],'claim':d['claim'],'outcome':'build still passed' if d['ok'] else 'build failed',
          'failed':d['failed'],'property_theorems_blocked':d['blocked'],'tightened':TIGHT.get(k,[])})+'\n')
