import Verif.Model.Mcg
import Verif.Model.Peripheral

/-!
# Model of curver/load.py

`load` returns a `MappingClassGroup`; the model returns what it is built from: the triangulation and the named curves and arcs.  (The twists and half twists about them, and the promotion at load.py `T([...])`, are not modelled.)
A name such as `f's_{i}'` is the pair of its letter and its number.
-/

namespace Curver

/-- `range(a, b)`. -/
def pyRange (a b : Int) : List Int := (List.range (b - a).toNat).map (fun (i : Nat) => a + i)

/-- `[x] * k`. -/
def pyRep {α : Type} (l : List α) (k : Int) : List α := (List.replicate k.toNat l).flatten

/-- The names of load.py: `f'{letter}_{number}'`. -/
abbrev GenName := Char × Int

/-- What `load` gives to `MappingClassGroup(curves=curves, arcs=arcs)`. -/
structure Loaded where
  tri : Triangulation
  curves : PyDict GenName (Lam Int)
  arcs : PyDict GenName (Lam Int)
  deriving DecidableEq, Repr

namespace Triangulation

/-- triangulation.py:516-527 `lamination(weights)`, also `T(weights)` (the last step, `promote`, which only changes the class, is left
out). -/
def lamOfWeights (T : Triangulation) (weights : List Int) : Py (Lam Int) :=
  if weights.length = T.zeta then .ok ⟨T, weights, .lamination⟩ else .error .assertionError

/-- triangulation.py:652-657 `edge_arc(edge)`. -/
def edgeArc (T : Triangulation) (e : Int) : Lam Int := ⟨T, T.indices.map (fun i => if i ≠ norm e then 0 else -1), .arc⟩

end Triangulation

/-- The dictionary built by successive assignments `d[name] = value`. -/
def assignAll {α : Type} (l : List (GenName × Py α)) : Py (PyDict GenName α) := do
  let items ← l.mapM (fun p => do let v ← p.2; return (p.1, v))
  return PyDict.ofList items

/-- load.py:33-37: the triples of `S_0_n`. -/
def triples0 (n : Int) : List (List Int) :=
  (pyRange 0 (n - 3)).map (fun i => [i, i + 2 * n - 4, inv (i + 1)])
  ++ (pyRange (n - 2) (2 * n - 5)).map (fun i => [i, inv (i + 1), inv (i + n - 1)])
  ++ [[inv 0, inv (n - 2), inv (2 * n - 4)], [n - 3, 3 * n - 7, 2 * n - 5]]

/-- load.py:11-48 `S_0_n`. -/
def load0 (n : Int) : Py Loaded := do
  pyAssert (3 ≤ n)
  let T ← Triangulation.fromTuple (triples0 n)
  let arcs ← assignAll ((pyRange 0 (n - 2)).map (fun i => (('s', i), .ok (T.edgeArc (2 * n - 4 + i))))
    ++ [(('s', n - 2), .ok (T.edgeArc (2 * n - 5))), (('s', n - 1), .ok (T.edgeArc 0))])
  return ⟨T, PyDict.ofList [], arcs⟩

/-- load.py:55, 60-66: the triples of `S_1_n`. -/
def triples1 (n : Int) : List (List Int) :=
  if n = 1 then [[0, 1, 2], [inv 0, inv 1, inv 2]] else
  [[0, 1, 2]]
  ++ (pyRange 0 (n - 1)).map (fun i => [inv (1 + 2 * i), 1 + 2 * i + 2, 1 + 2 * i + 3])
  ++ [[2 * n + 1, inv (2 * n), inv (2 * n - 1)]]
  ++ (pyRange 1 (n - 1)).map (fun i => [2 * n + 1 + i, inv (2 * n - 2 * i), inv (2 * n + i)])
  ++ [[inv 0, inv (3 * n - 1), inv 2]]

/-- load.py:50-79 `S_1_n`. -/
def load1 (n : Int) : Py Loaded := do
  pyAssert (1 ≤ n)
  let T ← Triangulation.fromTuple (triples1 n)
  if n = 1 then
    let curves ← assignAll [(('a', 0), .ok (T.curveFromCutSequence [0, 2])), (('b', 0), .ok (T.curveFromCutSequence [0, 1]))]
    return ⟨T, curves, PyDict.ofList []⟩
  else
    let curves ← assignAll ([
      (('a', 0), .ok (T.curveFromCutSequence ([0, 1] ++ (pyRange 0 (n - 1)).map (fun j => 3 + 2 * j) ++ (pyRange 0 (n - 1)).map (fun j => 2 * n + 1 + j)))),
      (('b', 0), .ok (T.curveFromCutSequence [0, 2]))]
      ++ (pyRange 1 n).map (fun i => (('p', i), .ok (T.curveFromCutSequence ([0, 1] ++ (pyRange 0 (n - 1 - i)).map (fun j => 3 + 2 * j) ++ [2 * n + 2 - 2 * i]
        ++ (pyRange 0 (n - i)).map (fun j => 2 * n + i + j))))))
    let arcs ← assignAll ([(('s', 0), .ok (T.edgeArc (2 * n - 1)))] ++ (pyRange 1 n).map (fun i => (('s', i), .ok (T.edgeArc (2 * n + 2 - 2 * i)))))
    return ⟨T, curves, arcs⟩

/-- load.py:86-89, 98-103: the triples of `S_2_n`. -/
def triples2 (n : Int) : List (List Int) :=
  if n = 1 then [[0, 1, 2], [inv 1, 3, 4], [inv 2, inv 3, inv 4], [inv 0, 5, 6], [inv 5, 7, 8], [inv 6, inv 7, inv 8]] else
  [[0, 1, 2], [inv 1, 3, 4], [inv 2, inv 3, inv 4], [inv 0, 5, 6], [inv 6, inv (3 * n + 5), inv 8]]
  ++ (pyRange 0 n).map (fun i => [inv (5 + 2 * i), 5 + 2 * i + 2, 5 + 2 * i + 3])
  ++ [[2 * n + 7, inv (2 * n + 6), inv (2 * n + 5)]]
  ++ (pyRange 1 (n - 1)).map (fun i => [2 * n + 7 + i, inv (2 * n + 6 - 2 * i), inv (2 * n + 6 + i)])

/-- load.py:81-120 `S_2_n`. -/
def load2 (n : Int) : Py Loaded := do
  pyAssert (1 ≤ n)
  let T ← Triangulation.fromTuple (triples2 n)
  if n = 1 then
    let curves ← assignAll [
      (('a', 0), .ok (T.curveFromCutSequence [1, 2, 3])), (('a', 1), .ok (T.curveFromCutSequence [5, 6, 7])),
      (('b', 0), .ok (T.curveFromCutSequence [1, 2, 4])), (('b', 1), .ok (T.curveFromCutSequence [5, 6, 8])),
      (('c', 0), .ok (T.curveFromCutSequence [0, 1, 2, 3, 0, 5, 6, 7])),
      (('d', 1), T.lamOfWeights [2, 2, 2, 2, 2, 1, 1, 1, 0])]
    return ⟨T, curves, PyDict.ofList []⟩
  else
    let curves ← assignAll ([
      (('a', 0), .ok (T.curveFromCutSequence [1, 2, 3])),
      (('a', 1), .ok (T.curveFromCutSequence ([6, 5] ++ (pyRange 0 n).map (fun j => 7 + j * 2) ++ (pyRange 0 (n - 1)).map (fun j => 2 * n + 7 + j)))),
      (('b', 0), .ok (T.curveFromCutSequence [1, 2, 4])),
      (('b', 1), .ok (T.curveFromCutSequence [5, 6, 8])),
      (('c', 0), .ok (T.curveFromCutSequence ([6, 0, 2, 4, 1, 2, 3, 4, 2, 0, 5] ++ (pyRange 0 n).map (fun j => 7 + j * 2)
        ++ (pyRange 0 (n - 1)).map (fun j => 2 * n + 7 + j)))),
      (('d', 1), T.lamOfWeights ([2, 2, 2, 2, 2, 1, 1, 1, 0] ++ pyRep [1, 0] (n - 1) ++ pyRep [1] (n - 1)))]
      ++ (pyRange 1 n).map (fun i => (('p', i), .ok (T.curveFromCutSequence ([6, 5] ++ (pyRange 0 (n - i)).map (fun j => 7 + j * 2) ++ [2 * n + 8 - 2 * i]
        ++ (pyRange 0 (n - i)).map (fun j => 2 * n + 6 + i + j))))))
    let arcs ← assignAll ([(('s', 0), .ok (T.edgeArc (2 * n + 5)))] ++ (pyRange 1 n).map (fun i => (('s', i), .ok (T.edgeArc (2 * n + 8 - 2 * i)))))
    return ⟨T, curves, arcs⟩

/-- load.py:127-132, 145-152: the triples of `S_3_n`. -/
def triples3 (n : Int) : List (List Int) :=
  if n = 1 then [[0, 1, 2], [inv 1, 3, 4], [inv 2, inv 3, inv 4], [5, 6, 7], [inv 6, 8, 9], [inv 7, inv 8, inv 9],
    [10, 11, 12], [inv 11, 13, 14], [inv 12, inv 13, inv 14], [inv 0, inv 5, inv 10]] else
  [[0, 1, 2], [inv 1, 3, 4], [inv 2, inv 3, inv 4], [5, 6, 7], [inv 6, 8, 9], [inv 7, inv 8, inv 9]]
  ++ [[10, 11, 12], [inv 11, 13, 14], [inv 12, inv (3 * n + 11), inv 14]]
  ++ (pyRange 0 (n - 1)).map (fun i => [inv (13 + 2 * i), 13 + 2 * i + 2, 13 + 2 * i + 3])
  ++ [[2 * n + 13, inv (2 * n + 12), inv (2 * n + 11)]]
  ++ (pyRange 1 (n - 1)).map (fun i => [2 * n + 13 + i, inv (2 * n + 12 - 2 * i), inv (2 * n + 12 + i)])
  ++ [[inv 0, inv 5, inv 10]]

/-- load.py:122-173 `S_3_n`. -/
def load3 (n : Int) : Py Loaded := do
  pyAssert (1 ≤ n)
  let T ← Triangulation.fromTuple (triples3 n)
  if n = 1 then
    let curves ← assignAll [
      (('a', 0), .ok (T.curveFromCutSequence [1, 2, 3])), (('a', 1), .ok (T.curveFromCutSequence [6, 7, 8])), (('a', 2), .ok (T.curveFromCutSequence [11, 12, 13])),
      (('b', 0), .ok (T.curveFromCutSequence [1, 2, 4])), (('b', 1), .ok (T.curveFromCutSequence [6, 7, 9])), (('b', 2), .ok (T.curveFromCutSequence [11, 12, 14])),
      (('c', 0), .ok (T.curveFromCutSequence [0, 2, 4, 1, 2, 3, 4, 2, 0, 5, 6, 8, 7, 5])),
      (('c', 1), .ok (T.curveFromCutSequence [5, 7, 9, 6, 7, 8, 9, 7, 5, 10, 11, 13, 12, 10])),
      (('d', 1), T.lamOfWeights [2, 2, 2, 2, 2, 2, 1, 1, 1, 0, 0, 0, 0, 0, 0]),
      (('d', 2), T.lamOfWeights [2, 2, 2, 2, 2, 2, 2, 2, 2, 2, 2, 1, 1, 1, 0])]
    return ⟨T, curves, PyDict.ofList []⟩
  else
    let curves ← assignAll ([
      (('a', 0), .ok (T.curveFromCutSequence [1, 2, 3])),
      (('a', 1), .ok (T.curveFromCutSequence [6, 7, 8])),
      (('a', 2), .ok (T.curveFromCutSequence ([12, 11] ++ (pyRange 0 n).map (fun j => 13 + j * 2) ++ (pyRange 0 (n - 1)).map (fun j => 2 * n + 13 + j)))),
      (('b', 0), .ok (T.curveFromCutSequence [1, 2, 4])),
      (('b', 1), .ok (T.curveFromCutSequence [6, 7, 9])),
      (('b', 2), .ok (T.curveFromCutSequence [11, 12, 14])),
      (('c', 0), .ok (T.curveFromCutSequence [0, 2, 4, 3, 2, 1, 4, 2, 0, 5, 7, 8, 6, 5])),
      (('c', 1), .ok (T.curveFromCutSequence ([12, 10, 5, 7, 9, 6, 7, 8, 9, 7, 5, 10, 11] ++ (pyRange 0 n).map (fun j => 13 + j * 2)
        ++ (pyRange 0 (n - 1)).map (fun j => 2 * n + 13 + j)))),
      (('d', 1), T.lamOfWeights ([2, 2, 2, 2, 2, 2, 1, 1, 1] ++ pyRep [0] (3 * n + 3))),
      (('d', 2), T.lamOfWeights ([2, 2, 2, 2, 2, 2, 2, 2, 2, 2, 2, 1, 1, 1, 0] ++ pyRep [1, 0] (n - 1) ++ pyRep [1] (n - 1)))]
      ++ (pyRange 1 n).map (fun i => (('p', i), .ok (T.curveFromCutSequence ([12, 11] ++ (pyRange 0 (n - i)).map (fun j => 13 + j * 2) ++ [2 * n + 14 - 2 * i]
        ++ (pyRange 0 (n - i)).map (fun j => 2 * n + 12 + i + j))))))
    let arcs ← assignAll ([(('s', 0), .ok (T.edgeArc (2 * n + 11)))] ++ (pyRange 1 n).map (fun i => (('s', i), .ok (T.edgeArc (2 * n + 14 - 2 * i)))))
    return ⟨T, curves, arcs⟩

/-- load.py:181-190, 204-219: the triples of `S_g_n`. -/
def triplesG (g n : Int) : List (List Int) :=
  if n = 1 then
    (pyRange 0 g).map (fun i => [5 * i + 0, 5 * i + 1, 5 * i + 2])
    ++ (pyRange 0 g).map (fun i => [inv (5 * i + 1), 5 * i + 3, 5 * i + 4])
    ++ (pyRange 0 g).map (fun i => [inv (5 * i + 2), inv (5 * i + 3), inv (5 * i + 4)])
    ++ [[inv 0, inv 5, 5 * g]]
    ++ (pyRange 0 (g - 4)).map (fun i => [5 * g + 1 + i, inv (5 * g + i), inv (5 * i + 10)])
    ++ [[inv (5 * g + g - 4), inv (5 * g - 10), inv (5 * g - 5)]]
  else
    (pyRange 0 g).map (fun i => [5 * i + 0, 5 * i + 1, 5 * i + 2])
    ++ (pyRange 0 g).map (fun i => [inv (5 * i + 1), 5 * i + 3, 5 * i + 4])
    ++ (pyRange 0 (g - 1)).map (fun i => [inv (5 * i + 2), inv (5 * i + 3), inv (5 * i + 4)])
    ++ [[inv (5 * (g - 1) + 2), inv (5 * (g - 1) + 4 + (3 * n - 3)), inv (5 * (g - 1) + 4)]]
    ++ (pyRange 0 (n - 1)).map (fun i => [inv (5 * g - 2 + 2 * i), 5 * g - 2 + 2 * i + 2, 5 * g - 2 + 2 * i + 3])
    ++ [[5 * g - 2 + 2 * (n - 1) + 2, inv (5 * g - 2 + 2 * (n - 1) + 1), inv (5 * g - 2 + 2 * (n - 1))]]
    ++ (pyRange 1 (n - 1)).map (fun i => [5 * g - 2 + 2 * (n - 1) + 2 + i, inv (5 * g - 2 + 2 * (n - 1) + 1 - 2 * i), inv (5 * g - 2 + 2 * (n - 1) + 2 + i - 1)])
    ++ [[inv 0, inv 5, 5 * g + 3 * n - 3]]
    ++ (pyRange 0 (g - 4)).map (fun i => [5 * g + 3 * n - 3 + 1 + i, inv (5 * g + 3 * n - 3 + i), inv (5 * i + 10)])
    ++ [[inv (5 * g + 3 * n - 3 + g - 4), inv (5 * g - 10), inv (5 * g - 5)]]

/-- load.py:175-251 `S_g_n`. -/
def loadG (g n : Int) : Py Loaded := do
  pyAssert (4 ≤ g)
  pyAssert (1 ≤ n)
  let T ← Triangulation.fromTuple (triplesG g n)
  if n = 1 then
    let curves ← assignAll (
      (pyRange 0 g).flatMap (fun i => [
        (('a', i), .ok (T.curveFromCutSequence [5 * i + 1, 5 * i + 2, 5 * i + 3])),
        (('b', i), .ok (T.curveFromCutSequence [5 * i + 1, 5 * i + 2, 5 * i + 4]))])
      ++ [(('c', 0), .ok (T.curveFromCutSequence ([0, 2, 4, 3, 2, 1, 4, 2, 0, 5, 6, 8, 7, 5].map (fun j => 5 * 0 + j))))]
      ++ (pyRange 1 (g - 2)).map (fun i => (('c', i), .ok (T.curveFromCutSequence ([0, 2, 4, 3, 2, 1, 4, 2, 0, 5, 6, 8, 7, 5].map (fun j => 5 * i + j)
        ++ [5 * g + i - 1, 5 * g + i - 1]))))
      ++ [(('c', g - 2), .ok (T.curveFromCutSequence ([0, 2, 4, 3, 2, 1, 4, 2, 0, 5, 6, 8, 7, 5].map (fun j => 5 * (g - 2) + j))))]
      ++ (pyRange 1 (g - 1)).map (fun i => (('d', i), T.lamOfWeights ([2] ++ pyRep [2] (5 * i) ++ [1, 1, 1] ++ pyRep [0] (5 * g + 3 * n - 7 - 5 * i)
        ++ pyRep [2] (i - 1) ++ pyRep [0] (1 + g - 3 - i))))
      ++ [(('d', g - 1), T.lamOfWeights (pyRep [2] (5 * g - 4) ++ [1, 1, 1, 0] ++ pyRep [2] (g - 3)))])
    return ⟨T, curves, PyDict.ofList []⟩
  else
    let curves ← assignAll (
      (pyRange 0 (g - 1)).map (fun i => (('a', i), .ok (T.curveFromCutSequence [5 * i + 1, 5 * i + 2, 5 * i + 3])))
      ++ [(('a', g - 1), .ok (T.curveFromCutSequence ([5 * (g - 1) + 1, 5 * (g - 1) + 2] ++ (pyRange 0 n).map (fun j => 5 * (g - 1) + 3 + j * 2)
        ++ (pyRange 0 (n - 1)).map (fun j => 5 * g + 2 * n - 2 + j))))]
      ++ (pyRange 0 g).map (fun i => (('b', i), .ok (T.curveFromCutSequence [5 * i + 1, 5 * i + 2, 5 * i + 4])))
      ++ [(('c', 0), .ok (T.curveFromCutSequence ([0, 2, 4, 3, 2, 1, 4, 2, 0, 5, 6, 8, 7, 5].map (fun j => 5 * 0 + j))))]
      ++ (pyRange 1 (g - 2)).map (fun i => (('c', i), .ok (T.curveFromCutSequence ([0, 2, 4, 3, 2, 1, 4, 2, 0, 5, 6, 8, 7, 5].map (fun j => 5 * i + j)
        ++ [5 * g + 3 * n - 3 + i - 1, 5 * g + 3 * n - 3 + i - 1]))))
      ++ [(('c', g - 2), .ok (T.curveFromCutSequence ([7, 5, 0, 2, 4, 1, 2, 3, 4, 2, 0, 5, 6].map (fun j => 5 * (g - 2) + j)
        ++ (pyRange 0 n).map (fun j => 5 * (g - 1) + 3 + j * 2) ++ (pyRange 0 (n - 1)).map (fun j => 5 * g + 2 * n - 2 + j))))]
      ++ (pyRange 1 (g - 1)).map (fun i => (('d', i), T.lamOfWeights ([2] ++ pyRep [2] (5 * i) ++ [1, 1, 1] ++ pyRep [0] (5 * g + 3 * n - 7 - 5 * i)
        ++ pyRep [2] (i - 1) ++ pyRep [0] (1 + g - 3 - i))))
      ++ [(('d', g - 1), T.lamOfWeights (pyRep [2] (5 * g - 4) ++ [1, 1, 1, 0] ++ pyRep [1, 0] (n - 1) ++ pyRep [1] (n - 1) ++ pyRep [2] (g - 3)))]
      ++ (pyRange 1 n).map (fun i => (('p', i), .ok (T.curveFromCutSequence ([5 * (g - 1) + 1, 5 * (g - 1) + 2]
        ++ (pyRange 0 (n - i)).map (fun j => 5 * (g - 1) + 3 + j * 2) ++ [5 * g + 2 * n - 1 - 2 * i] ++ (pyRange 0 (n - i)).map (fun j => 5 * g + 2 * n - 3 + i + j))))))
    let arcs ← assignAll ([(('s', 0), .ok (T.edgeArc (5 * g + 2 * n - 4)))]
      ++ (pyRange 1 n).map (fun i => (('s', i), .ok (T.edgeArc (5 * g + 2 * n - 1 - 2 * i)))))
    return ⟨T, curves, arcs⟩

/-- load.py:345-364 `load(g, n)`. -/
def load (g n : Int) : Py Loaded :=
  if g < 0 ∨ n < 1 ∨ 6 * g + 3 * n - 6 < 3 then .error .valueError
  else if g = 0 then load0 n
  else if g = 1 then load1 n
  else if g = 2 then load2 n
  else if g = 3 then load3 n
  else loadG g n

/-- One entry `name: S.curves[key]` or `name: S.arcs[key]` of the dictionaries in `load_old`. -/
def pick (d : PyDict GenName (Lam Int)) (l : List (Char × GenName)) : Py (PyDict Char (Lam Int)) := do
  let items ← l.mapM (fun p => do let v ← d.get p.2; return (p.1, v))
  return PyDict.ofList items

/-- What `load_old` gives to `MappingClassGroup`; the names are single letters. -/
structure LoadedOld where
  tri : Triangulation
  curves : PyDict Char (Lam Int)
  arcs : PyDict Char (Lam Int)
  deriving DecidableEq, Repr

/-- The value of a string of decimal digits. -/
def digitsValue (w : Str) : Nat := w.foldl (fun v c => 10 * v + (c.toNat - '0'.toNat)) 0

/-- load.py:5, 324: the number matched by `SB_(?P<num_strands>\d+)$` (ASCII digits, no trailing newline). -/
def sphereBraid : Str → Option Nat
  | 'S' :: 'B' :: '_' :: w => if w ≠ [] ∧ w.all Str.isDigit = true then some (digitsValue w) else none
  | _ => none

/-- Build from the curves and arcs of `load(g, n)` the dictionaries of `load_old`. -/
def pickFrom (g n : Int) (curves arcs : List (Char × GenName)) : Py LoadedOld := do
  let S ← load g n
  let cs ← pick S.curves curves
  let as ← pick S.arcs arcs
  return ⟨S.tri, cs, as⟩

/-- load.py:253-327 `load_old`.  For `SB_n` the group is that of `S_0_n`, with its own names. -/
def loadOld (surface : Str) : Py (LoadedOld ⊕ Loaded) :=
  if surface = "S_0_4".toList then .inl <$> pickFrom 0 4 [] [('a', ('s', 1)), ('b', ('s', 2)), ('c', ('s', 3)), ('d', ('s', 0))]
  else if surface = "S_1_1".toList then .inl <$> pickFrom 1 1 [('a', ('a', 0)), ('b', ('b', 0))] []
  else if surface = "S_1_2".toList then .inl <$> pickFrom 1 2 [('a', ('a', 0)), ('b', ('b', 0)), ('c', ('p', 1))] [('x', ('s', 1))]
  else if surface = "S_1_2p".toList then .inl <$> pickFrom 1 2 [('a', ('a', 0)), ('b', ('b', 0)), ('c', ('p', 0))] []
  else if surface = "S_2_1".toList then .inl <$> pickFrom 2 1 [('a', ('b', 0)), ('b', ('c', 0)), ('c', ('b', 1)), ('d', ('a', 1)), ('e', ('d', 1)),
    ('f', ('a', 0))] []
  else if surface = "S_3_1".toList then .inl <$> pickFrom 3 1 [('a', ('b', 0)), ('b', ('c', 0)), ('c', ('b', 1)), ('d', ('c', 1)), ('e', ('b', 2)),
    ('f', ('d', 2)), ('g', ('a', 2)), ('h', ('a', 1))] []
  else if surface = "S_4_1".toList then .inl <$> pickFrom 4 1 [('a', ('b', 0)), ('b', ('c', 0)), ('c', ('b', 1)), ('d', ('c', 1)), ('e', ('b', 2)),
    ('f', ('c', 2)), ('g', ('b', 3)), ('h', ('d', 3)), ('i', ('a', 3)), ('j', ('a', 2))] []
  else if surface = "S_5_1".toList then .inl <$> pickFrom 5 1 [('a', ('b', 0)), ('b', ('c', 0)), ('c', ('b', 1)), ('d', ('c', 1)), ('e', ('b', 2)),
    ('f', ('c', 2)), ('g', ('b', 3)), ('h', ('c', 3)), ('i', ('b', 4)), ('j', ('d', 4)), ('k', ('a', 4)), ('l', ('a', 3))] []
  else match sphereBraid surface with
    | some n => .inr <$> load0 n
    | none => .error .valueError

/-- The arguments of `load(*args)`: strings or integers. -/
inductive LoadArg where
  | str (s : Str)
  | int (i : Int)
  deriving DecidableEq, Repr

/-- load.py:329-366 `load(*args)`.  A single integer (or a pair with a string) fails: `REGEX.match(int)` raises `TypeError`, the
assertions at 346-347 fail. -/
def loadArgs : List LoadArg → Py (LoadedOld ⊕ Loaded)
  | [.str s] => loadOld s
  | [.int _] => .error .typeError
  | [.int g, .int n] => .inr <$> load g n
  | [_, _] => .error .assertionError
  | _ => .error .valueError

end Curver
