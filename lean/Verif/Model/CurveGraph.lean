import Verif.Model.BoundaryUnion
import Verif.Model.ExploreBall
import Verif.Model.VertexCycles

/-!
# Model of the algorithms of `CurveGraph` (curver/kernel/curvegraph.py)
-/

namespace Curver
namespace CurveGraph

/-- curvegraph.py:101 `P.add(path)` for a set of tuples of laminations, which are compared entry by entry. -/
def addPath (s : List (List (Lam Int))) (p : List (Lam Int)) : List (List (Lam Int)) :=
  if s.any (fun q => q.length == p.length && (q.zip p).all (fun r => r.1.eqv r.2)) then s else s ++ [p]

section
variable (P : Lam Int → Py LamClass) (dflt : Int → Int → Bool) (fuel : Nat)

/-- curvegraph.py:71-74: the first four assertions of `tight_paths`. -/
def checkEnds (T : Triangulation) (a b : Lam Int) : Py Unit := do
  pyAssert a.cls.isMultiCurve
  pyAssert b.cls.isMultiCurve
  pyAssert (a.tri == T)
  pyAssert (b.tri == T)

/-- curvegraph.py:86-94: the candidates for the second entry of a path of the given length: the set `A_1`.  (Sets are listed in the order in which their elements were added.) -/
def secondEntries (T : Triangulation) (a b : Lam Int) (length : Nat) : Py (List (Lam Int)) := do
  let crush ← a.crushOf P dflt fuel
  let lift ← crush.inverse
  let b' ← crush.applyLam P b
  let ball ← b'.exploreBall P dflt fuel (2 * T.zeta * length + 2 * T.zeta)
  ball.foldlM (fun s triangulation => do
    let subs ← triangulation.sublaminations P dflt fuel
    subs.foldlM (fun s submultiarc => do
      let m' ← submultiarc.boundary P dflt fuel
      let m ← lift.applyLam P m'
      return Lam.addTo s m) s) []

/-- curvegraph.py:66-103 `tight_paths`.  `length` is a natural number, so that the assertion at line 75 holds. -/
def tightPaths (T : Triangulation) (a b : Lam Int) : Nat → Py (List (List (Lam Int)))
  | 0 => do
    checkEnds T a b
    if a.eqv b then return [[a]] else return []
  | 1 => do
    checkEnds T a b
    let i ← a.intersectionAll P dflt fuel b
    if i = 0 then do
      let n ← a.noCommonComponent P dflt fuel b
      if n then return [[a, b]] else return []
    else return []
  | 2 => do
    checkEnds T a b
    let m ← a.boundaryUnion P dflt fuel b
    let p ← m.isPeripheral P
    if p then return []
    else do
      let x ← a.noCommonComponent P dflt fuel m
      if x then do
        let y ← b.noCommonComponent P dflt fuel m
        if y then return [[a, m, b]] else return []
      else return []
  | n + 3 => do
    checkEnds T a b
    let f ← a.fillsWith P dflt fuel b
    if f then do
      let A1 ← secondEntries P dflt fuel T a b (n + 3)
      A1.foldlM (fun s a1 => do
        let paths ← tightPaths T a1 b (n + 2)
        paths.foldlM (fun s multipath =>
          match multipath with
          | [] => .error .indexError
          | a2 :: _ => do
            let m ← a.boundaryUnion P dflt fuel a2
            if m.eqv a1 then return addPath s (a :: multipath) else return s) s) []
    else return []

/-- curvegraph.py:41-44 (also 110-113, 126-129, 153-156): the assertions about two curves. -/
def checkCurves (T : Triangulation) (a b : Lam Int) : Py Unit := do
  pyAssert (a.cls == .curve)
  pyAssert (b.cls == .curve)
  pyAssert (a.tri == T)
  pyAssert (b.tri == T)

/-- curvegraph.py:58-61: the loop over the moves, given in the order in which they are performed.  `index` is the number of the moves performed so far. -/
def quasiconvexLoop (cycles : List (Int × Int) → List (List Int)) (invA invB : Enc) : List LMove → Nat → Lam Int → List (Lam Int) → Py (List (Lam Int))
  | [], _, _, s => return s
  | m :: ms, index, trainTrack, s => do
    let trainTrack ← m.move.applyLam trainTrack
    let vertexCycle ← trainTrack.vertexCycle cycles P
    let back ← invB.slice none (some (index + 1 : Nat))
    let x ← back.applyLam vertexCycle
    let y ← invA.applyLam x
    quasiconvexLoop cycles invA invB ms (index + 1) trainTrack (Lam.addTo s y)

/-- curvegraph.py:34-63 `quasiconvex`.  `cycles` stands for `networkx.simple_cycles`. -/
def quasiconvex (cycles : List (Int × Int) → List (List Int)) (T : Triangulation) (a b : Lam Int) : Py (List (Lam Int)) := do
  checkCurves T a b
  let (a, b) := if b.weight < a.weight then (b, a) else (a, b)
  let (_, conjugatorA) ← a.shortenAll P dflt fuel dflt
  let invA ← conjugatorA.inverse
  let shortB ← conjugatorA.applyLam b
  let (_, conjugatorB) ← shortB.shortenAll P dflt fuel dflt
  let invB ← conjugatorB.inverse
  quasiconvexLoop P cycles invA invB conjugatorB.sequence.reverse 0 shortB (Lam.addTo [a] b)

/-- curvegraph.py:20: `QUASICONVEXITY`. -/
def quasiconvexity : Nat := 10

/-- curvegraph.py:116-117: the set comprehension. -/
def tightMulticurves (T : Triangulation) (guide : List (Lam Int)) : Py (List (Lam Int)) :=
  (List.range (6 * quasiconvexity + 2 + 1)).foldlM (fun s length =>
    guide.foldlM (fun s c1 =>
      guide.foldlM (fun s c2 => do
        let paths ← tightPaths P dflt fuel T c1 c2 length
        return paths.flatten.foldl Lam.addTo s) s) s) []

/-- curvegraph.py:105-117 `all_tight_geodesic_multicurves`. -/
def allTight (cycles : List (Int × Int) → List (List Int)) (T : Triangulation) (a b : Lam Int) : Py (List (Lam Int)) := do
  checkCurves T a b
  let guide ← quasiconvex P dflt fuel cycles T a b
  tightMulticurves P dflt fuel T guide

/-- `itertools.combinations(l, r=2)`. -/
def pairs {α : Type} : List α → List (α × α)
  | [] => []
  | x :: l => l.map (fun y => (x, y)) ++ pairs l

/-- curvegraph.py:133: the edges of the graph. -/
def graphEdges (vertices : List (Lam Int)) : Py (List (Lam Int × Lam Int)) :=
  (pairs vertices).foldlM (fun s e => do
    let i ← e.1.intersectionAll P dflt fuel e.2
    if i = 0 then do
      let n ← e.1.noCommonComponent P dflt fuel e.2
      if n then return s ++ [e] else return s
    else return s) []

/-- curvegraph.py:138-139: the entries after `previous`, tightened one after the other; the last one is kept. -/
def tightenAfter : Lam Int → List (Lam Int) → Py (List (Lam Int))
  | previous, _ :: next :: rest => do
    let m ← previous.boundaryUnion P dflt fuel next
    let tail ← tightenAfter m (next :: rest)
    return m :: tail
  | _, l => return l

/-- curvegraph.py:138-139: the first entry is kept. -/
def tighten : List (Lam Int) → Py (List (Lam Int))
  | [] => return []
  | x :: l => do
    let tail ← tightenAfter P dflt fuel x l
    return x :: tail

variable (cycles : List (Int × Int) → List (List Int)) (shortest : List (Lam Int × Lam Int) → Lam Int → Lam Int → Py (List (Lam Int)))

/-- curvegraph.py:119-141 `tight_geodesic`.  `shortest` stands for `networkx.algorithms.shortest_path` on the graph with the given edges. -/
def tightGeodesic (T : Triangulation) (a b : Lam Int) : Py (List (Lam Int)) := do
  checkCurves T a b
  let vertices ← allTight P dflt fuel cycles T a b
  let edges ← graphEdges P dflt fuel vertices
  let geodesic ← shortest edges a b
  tighten P dflt fuel geodesic

/-- curvegraph.py:143-158 `geodesic`. -/
def geodesic (T : Triangulation) (a b : Lam Int) : Py (List (Lam Int)) := do
  checkCurves T a b
  let multicurves ← tightGeodesic P dflt fuel cycles shortest T a b
  multicurves.mapM (fun multicurve => multicurve.peekComponent P dflt fuel)

/-- curvegraph.py:160-164 `distance`. -/
def distance (T : Triangulation) (a b : Lam Int) : Py Int := do
  let g ← geodesic P dflt fuel cycles shortest T a b
  return (g.length : Int) - 1

end
end CurveGraph
end Curver
