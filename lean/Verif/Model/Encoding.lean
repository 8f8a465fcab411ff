import Verif.Model.FindIsometry

/-!
# Model of curver/kernel/encoding.py and of `Triangulation.encode`

Encodings made of isometries, flips and multiflips.  Twists, half twists, crushes, lifts and linear transformations are
not moves of this model (see DESIGN.md).
-/

namespace Curver

/-- The Python class of an encoding (encoding.py:14, 138, 255). -/
inductive EncKind where
  | encoding
  | mapping
  | mappingClass
  deriving DecidableEq, Repr

namespace EncKind

/-- `isinstance(h, Mapping)`. -/
def isMapping : EncKind → Bool
  | .encoding => false
  | _ => true

end EncKind

/-- encoding.py:14-33 `Encoding`: a sequence of moves that act from right to left, its source and its target. -/
structure Enc where
  kind : EncKind
  sequence : List LMove
  source : Triangulation
  target : Triangulation
  deriving DecidableEq, Repr

namespace Enc

/-- encoding.py:23-24 (and 25-26): `len(sequence) > 1 and isinstance(item, Isometry) and item.is_identity()`. -/
def droppable (sequence : List LMove) (item : Option LMove) : Bool :=
  decide (sequence.length > 1) && (item.map (fun m => m.move.isIdentityIsometry)).getD false

/-- encoding.py:23-26: identity isometries at the right end, then at the left end, are dropped. -/
def trim (sequence : List LMove) : List LMove :=
  let sequence := if droppable sequence sequence.getLast? then sequence.dropLast else sequence
  if droppable sequence sequence.head? then sequence.tail else sequence

/-- encoding.py:18-32 `Encoding.__init__`. -/
def create (kind : EncKind) (sequence : List LMove) : Py Enc := do
  pyAssert (!sequence.isEmpty)
  let sequence := trim sequence
  match sequence.getLast?, sequence.head? with
  | some last, some first => return ⟨kind, sequence, last.move.source, first.move.target⟩
  | _, _ => .error .indexError

/-- encoding.py:128-136 `promote`.  All moves of the model are `FlipGraphMove`s (moves.py:58-67). -/
def promote (h : Enc) : Py Enc :=
  if !(h.source.eq h.target) then create .mapping h.sequence else create .mappingClass h.sequence

/-- encoding.py:41-42 `__len__`. -/
def len (h : Enc) : Nat := h.sequence.length

/-- encoding.py:123-125 `inverse` and 126-127 `__invert__`: `self.__class__` is kept. -/
def inverse (h : Enc) : Py Enc := create h.kind (h.sequence.reverse.map LMove.inverse)

/-- encoding.py:104-119 `__mul__` of two encodings. -/
def mul (g h : Enc) : Py Enc :=
  if !(g.source.eq h.target) then .error .valueError
  else if !(g.kind.isMapping && h.kind.isMapping) then create .encoding (g.sequence ++ h.sequence)
  else if !(g.target.eq h.source) then create .mapping (g.sequence ++ h.sequence)
  else create .mappingClass (g.sequence ++ h.sequence)

/-- encoding.py:89-96, 103 `__call__` on a lamination. -/
def applyLam {R : Type} [CommRing R] [LinearOrder R] [Halvable R] (h : Enc) (L : Lam R) : Py (Lam R) :=
  if !(h.source.eq L.tri) then .error .valueError
  else h.sequence.reverse.foldlM (fun L m => m.move.applyLam L) L

/-- encoding.py:89-92, 97-99, 103 `__call__` on a homology class. -/
def applyHom (h : Enc) (x : Hom) : Py Hom :=
  if !(h.source.eq x.tri) then .error .valueError
  else h.sequence.reverse.foldlM (fun x m => m.move.applyHom x) x

/-- `for _ in range(n): x = f(x)`. -/
def repeatM {α : Type} (f : α → Py α) : Nat → α → Py α
  | 0, x => .ok x
  | n + 1, x => do
    let y ← f x
    repeatM f n y

/-- encoding.py:259-265 `MappingClass.__call__(other, power)` on a lamination. -/
def applyLamPow {R : Type} [CommRing R] [LinearOrder R] [Halvable R] (h : Enc) (L : Lam R) (power : Int) : Py (Lam R) :=
  if power < 0 then do
    let g ← h.inverse
    repeatM g.applyLam (-power).toNat L
  else repeatM h.applyLam power.toNat L

/-- encoding.py:259-265 `MappingClass.__call__(other, power)` on a homology class. -/
def applyHomPow (h : Enc) (x : Hom) (power : Int) : Py Hom :=
  if power < 0 then do
    let g ← h.inverse
    repeatM g.applyHom (-power).toNat x
  else repeatM h.applyHom power.toNat x

end Enc

/-- moves.py:37-40 `Move.encode`. -/
def LMove.encode (m : LMove) : Py Enc := do
  let h ← Enc.create .encoding [m]
  h.promote

namespace Triangulation

/-- triangulation.py:687-690 `id_encoding`. -/
def idEncoding (T : Triangulation) : Py Enc := do
  let m ← T.idIsometry
  m.encode

end Triangulation

namespace Enc

/-- encoding.py:268-274 `MappingClass.__pow__`. -/
def pow (h : Enc) (k : Int) : Py Enc :=
  if k = 0 then h.source.idEncoding
  else if k > 0 then create .mappingClass (List.replicate k.toNat h.sequence).flatten
  else do
    let g ← h.inverse
    -- `g**abs(k)` with `abs(k) > 0`
    create .mappingClass (List.replicate k.natAbs g.sequence).flatten

end Enc

/-- One entry of the list given to `Triangulation.encode` (triangulation.py:811-830).  Pairs (twists, half twists and
crushes) are not modelled. -/
inductive EncItem where
  /-- an integer or an edge -/
  | flip (e : Int)
  /-- a set of edges -/
  | multiflip (es : List Int)
  /-- a dictionary -/
  | dict (d : PyDict Int Int)
  /-- `None` -/
  | none
  /-- a `Move` -/
  | move (m : LMove)
  /-- anything else, that is, an encoding -/
  | enc (h : Enc)

/-- What the loop of `Triangulation.encode` collects: encodings, except that `find_isometry` gives a bare isometry. -/
inductive EncTerm where
  | enc (h : Enc)
  | bare (m : LMove)

namespace EncTerm

/-- `term.target_triangulation`. -/
def target : EncTerm → Triangulation
  | .enc h => h.target
  | .bare m => m.move.target

/-- `iter(term)`: encodings are iterable (encoding.py:38-39), moves are not: `TypeError`. -/
def iter : EncTerm → Py (List LMove)
  | .enc h => .ok h.sequence
  | .bare _ => .error .typeError

end EncTerm

namespace Triangulation

/-- triangulation.py:837-864 the body of the loop of `encode`: the term for `item`; `self` is the triangulation on which
`encode` was called and `T` the current one. -/
def encodeItem (self T : Triangulation) : EncItem → Py EncTerm
  | .flip e => do
    let m ← T.encodeFlip e
    return .enc (← m.encode)
  | .multiflip es => do
    let m ← T.encodeMultiflip es
    return .enc (← m.encode)
  | .dict d =>
    if self.indices.all (fun i => d.contains i || d.contains (inv i)) then do
      let m ← T.encodeRelabel d
      return .enc (← m.encode)
    else do
      let m ← T.findIsometry self d
      return .bare m
  | .none => do return .enc (← T.idEncoding)
  | .move m => do return .enc (← m.encode)
  | .enc h => .ok (.enc h)

/-- triangulation.py:834-868 the loop of `encode`: the terms, in the order in which they are collected. -/
def encodeTerms (self : Triangulation) : Triangulation → List EncItem → Py (List EncTerm)
  | _, [] => .ok []
  | T, item :: items => do
    let term ← encodeItem self T item
    let terms ← encodeTerms self term.target items
    return term :: terms

/-- triangulation.py:811-870 `encode`. -/
def encode (self : Triangulation) (sequence : List EncItem) : Py Enc := do
  pyAssert (!sequence.isEmpty)
  let termsReversed ← self.encodeTerms self sequence.reverse
  let moves ← termsReversed.reverse.mapM EncTerm.iter
  let h ← Enc.create .encoding moves.flatten
  h.promote

end Triangulation

/-- `L[i]` for an integer `i`: negative indices count from the end, `IndexError` when out of range. -/
def pyGetInt {α : Type _} (l : List α) (i : Int) : Py α :=
  if 0 ≤ i then pyGet l i.toNat
  else if 0 ≤ i + l.length then pyGet l (i + l.length).toNat
  else .error .indexError

/-- The bound of a slice as Python clips it: `None`, negative and too large bounds. -/
def pyClip (len : Nat) (default : Nat) : Option Int → Nat
  | none => default
  | some i => if i < 0 then (i + len).toNat else min i.toNat len

/-- `L[start:stop]` as Python computes it. -/
def pySlice {α : Type _} (l : List α) (start stop : Option Int) : List α :=
  (l.take (pyClip l.length l.length stop)).drop (pyClip l.length 0 start)

namespace Enc

/-- encoding.py:51-52: a bound of the slice, `default if value is None else value if value >= 0 else len(self) + value`. -/
def sliceBound (n default : Int) : Option Int → Int
  | none => default
  | some i => if i ≥ 0 then i else n + i

/-- encoding.py:42-68 `__getitem__` with a slice `start:stop` (without a step). -/
def slice (h : Enc) (valueStart valueStop : Option Int) : Py Enc := do
  let n : Int := h.len
  let start := max (sliceBound n 0 valueStart) (-n)
  let stop := min (sliceBound n n valueStop) n
  if start = stop then
    if 0 ≤ start ∧ start < n then do
      let m ← pyGetInt h.sequence start
      m.move.target.idEncoding
    else if start = n then h.source.idEncoding
    else .error .indexError
  else if stop < start then .error .indexError
  else do
    let m ← pyGetInt h.sequence (stop - 1)
    m.move.source.encode ((pySlice h.sequence valueStart valueStop).map .move)

/-- encoding.py:69-70 `__getitem__` with an integer. -/
def getItem (h : Enc) (i : Int) : Py LMove := pyGetInt h.sequence i

end Enc

namespace Move

/-- moves.py:50, 100-101, 144-145, 234-235 `package`: what `Triangulation.encode` needs to rebuild the move. -/
def package : Move → EncItem
  | .isometry m => if m.isIdentity then .none else .dict m.labelMap
  | .flip m => .flip m.edge
  | .multiflip m => .multiflip m.edges

end Move

namespace Enc

/-- encoding.py:71-73 `package`. -/
def package (h : Enc) : List EncItem := h.sequence.map (fun m => m.move.package)

/-- encoding.py:74-75 `__reduce__` and 530-533 `create_encoding`: what unpickling does. -/
def unpickle (source : Triangulation) (data : List EncItem) : Py Enc := source.encode data

/-- encoding.py:240-249: the body of the loop of `combine_isometries`; the state is `encoding` and `permutation`. -/
def combineStep (edges : List Int) (st : List EncItem × PyDict Int Int) (m : Move) : Py (List EncItem × PyDict Int Int) :=
  match m with
  | .flip f => do
    let e ← st.2.get f.edge
    return (st.1 ++ [.flip (setSign e (sign f.edge))], st.2)
  | .multiflip f => do
    let es ← f.edges.mapM (fun edge => do
      let e ← st.2.get edge
      return setSign e (sign edge))
    return (st.1 ++ [.multiflip es.dedup], st.2)
  | .isometry i => do
    let pairs ← edges.mapM (fun j => do
      let k ← i.inverseLabelMap.get j
      let v ← st.2.get k
      return (j, v))
    return (st.1, PyDict.ofList pairs)

/-- encoding.py:233-253 `combine_isometries`. -/
def combineIsometries (h : Enc) : Py Enc := do
  let edges := h.source.labels
  let (encoding, permutation) ← h.sequence.reverse.foldlM (fun st m => combineStep edges st m.move)
    ([], PyDict.ofList (edges.map (fun e => (e, e))))
  h.source.encode (.dict (PyDict.ofList (permutation.map (fun p => (p.2, p.1)))) :: encoding.reverse)

end Enc
end Curver
