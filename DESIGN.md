# Formal model of curver in Lean 4

Source: /repo (MarkCBell/curver at the pinned commit), read as text only.
Model and proofs: /verif/lean/Verif. Property list: properties.jsonl. Status: MANIFEST.json.
Seeded-bug experiments: seeded/LOG.jsonl.

## 1. Shape of the model

* Python exceptions are values: `Py α := Except PyErr α` with `PyErr` = valueError, typeError, keyError,
  indexError, assertionError, zeroDivision.  Every function that can raise is modelled in `Py`.
* Python dicts are association lists in insertion order with "assignment replaces in place" semantics;
  `dict(pairs)` makes the last pair win.  Python sets are duplicate free lists; wherever the code iterates over a
  set the theorem quantifies over all orders (permutations) of the list, so that CPython's iteration order does not matter.
* Loops become structural recursions; `while` loops whose termination is not syntactic take a fuel argument and
  the theorems prove that the fuel supplied by the model suffices (that is the termination claim).
* Python integers are `Int`/`Nat`.  Weights of laminations live in an arbitrary ordered ring with an exact
  halving operation (`int` and exact algebraic numbers in the code).
* Memoised methods are modelled as pure functions; C27 justifies this.

## 2. Files

| file | models |
|---|---|
| `Verif/Py.lean` | exceptions, dicts, loops |
| `Verif/Model/*.lean` | the code, function by function, each definition citing file:lines |
| `Verif/Spec/*.lean` | small independent specifications used in the statements |
| `Verif/Proofs/*.lean` | helper lemmas |
| `Verif/Props/*.lean` | the property theorems with their non-vacuity examples |

## 3. Per property plan

| id | modelled | proof method |
|---|---|---|
| C01 | `norm`, `Edge.__invert__/sign/set_sign` on Int labels | omega case split |
| C02 | `b64encode/b64decode` on strings as char lists | strong induction on n |
| C03 | `Permutation.index/from_index` | induction on the list: factorial number system |
| C04 | `Triangulation.sig/from_sig` incl. the string split | C02 + C03 + canonical form of triangulations |
| C05 | `from_tuple` with its checks and the constructor | counting: 2*zeta labels all present => permutation. exact set of accepted inputs; the code also accepts odd counts with one surplus label: negation witness |
| C06 | canonical rotation, sort, `__eq__`, `package` | sorted permutations of each other are equal |
| C07 | the constructor's vertex loop | invariant: visited part is a prefix of an orbit of an injective map on a finite set |
| C08 | `is_flippable`, `square`, `encode_multiflip`, `encode_flip` | corner relation of target computed; equality by C06 |
| C09,C10 | `EdgeFlip.apply_lamination` nine cases | pure lemma on 5 numbers, then lifted to weight vectors |
| C11 | `Isometry`, `encode_relabel_edges` | bijection on finite label set |
| C12,C13 | `find_isometry`, `isometries_to` | invariant of the worklist loop |
| C14-C18 | `Encoding`, `Mapping`, `MappingClass` | induction over the list of moves |
| C19 | `package`, `encode` | induction over the moves |
| C20 | `StraightLineProgram` | DAG semantics by induction on node number |
| C21 | `UnionFind` | parent-forest invariant preserved by every operation |
| C22,C23,C48,C49 | `utilities` | list induction |
| C24-C26 | `Permutation` | list as function on Fin n; Mathlib cycle types |
| C27 | `memoize` as state machine | invariant over history |
| C28 | `PartialLinearFunction`, `pl_action` | matrix algebra on lists/functions |
| C29 | multi flip | locality of a flip; any order |
| C30 | `combine_isometries` | induction with an accumulated isometry |
| C31 | word parser | induction over a grammar of words |
| C32,C33 | homology | boundary relations and dual tree walk |
| C34,C35 | `dual_tree`, `components` | union-find theory from C21 |
| C36 | vertices/edges/components counts | permutation signs and flip invariance |
| C37 | Pachner 1-3 | direct |
| C38,C39 | `load` | symbolic families, counting |
| C40-C43 | laminations | pointwise arithmetic |
| C44,C45 | searches over words | worklist invariants over an abstract group |
| C46,C47 | dispatch, equality | case analysis |
| C50 | `random_word` | for every choice sequence |
| C51 | the nine cases of `EdgeFlip.apply_lamination` against systems of disjoint arcs in a square | 16 kinds of arcs with multiplicities, linear arithmetic |
| C52 | `Twist.__init__`, `Curve.parallel`, `is_short` | the flips around the curve are a walk; invariant of the walk (`Slide`, `Sweep`, `Turns`), then an explicit isometry |
| C53 | `Twist.apply_lamination`, `Curve.slope` | one twist acts on corner numbers as a shift outside a danger zone, crossed in two twists (`TwistDyn`) |
| C54 | same, `Curve.intersection` | from the action of one twist as a permutation of the laminations |
| C55 | `Twist.apply_homology` | cocycles pair with the loop; one flip at a time |
| C56 | `HalfTwist.__init__`, `Arc.parallel`, `conjugate_by` | the flips around one end of the arc are a sweep of a fan (`Clear`, `Half`); the relabelling they make is an isometry sending the arc to its inverse |
| C57 | half twists on laminations and vertices | weights along the sweep; correspondence of vertices along a path of flips |
| C58,C59 | `shorten` with all its parts (`Model/Shorten.lean`); the floating point comparison with `drop` is an arbitrary function `slow`, loops and recursion have fuel | invariant of the rounds: the part put aside stays a sum of items which all later moves spare (`Room*`, `Spares`, `Shorten*`), by induction over the fuel |
| C60 | `encode_twist`, `components`, `intersection` of any curve | conjugates of the twists of C52-C54 by the mapping of C58 |
| C61 | `trace_curve` | the traced edges are a closed path of corners |
| C62 | `Encoding.__call__`, `__mul__` | the cases of a flip are homogeneous; induction over the moves |
| C63 | `intersection` with an edge | evaluation of `shorten` on an edge arc |
| C64 | `Encoding.__call__` on disjoint unions | strands of a lamination are coloured; a flip carries a colouring of the strands to a colouring of the new strands (14 cases of the flip formula), and the weights count the strands of a colour |
| C65 | connected laminations | colourings restrict and merge, so two decompositions have a common refinement; C64 for the naturality |
| C66 | `components`, `parallel_components`, `peripheral_components` on top of `shorten` | the peeled links, belts and hubs are connected parts; what the shortened lamination consists of (from the proof of C58) is a union of these; pulled back with C64 |
| C67 | `components` and `Encoding.__call__` | both sides decompose `h(L)`: C65 |
| C68 | `promote`, the class of `shorten`, `disjoint_sum` | every lamination has a connected decomposition; `disjoint_sum` of disjoint parts with right classes has the right class; applied to the terms from which `shorten` rebuilds its result |
| C69 | `num_components` | the length of the decomposition; C65 |
| C70 | `no_common_component` | the keys of `components()` are the connected parts; C65 |
| C71 | `multiarc`, `multicurve` | a permutation of the decomposition, split in two |
| C72 | `skeleton`, `peek_component`, `sublaminations` | sub-dictionaries of `components()`; the dictionary determines the lamination |
| C73 | `shorten` returns | flips: a measure on the weights and on the corners of arcs; cut sequences end since the next edge is a partial bijection; the arcs of a cut sequence have weights at most 4, so their own shortening needs no further cut; each round freezes another edge; a larger bound gives the same result |
| C74 | `components` etc. return | from C73 and the specification of the components |
| C75 | `T(weights)` and `+` return | from C73; the class is irrelevant inside `shorten`, so there is no recursion through `promote` |
| C76 | twists and intersection numbers exist | from C73; each component of a short multicurve is around an edge or a vertex |
| C77 | `all_encodings` | induction on the number of flips; a flip determines its edge, so different sequences give different encodings |
| C78 | `is_triangulation` | the short form of a multiarc runs along edges (C58, C68); components are unique (C65) |
| C79 | `is_polygonalisation` | a forest in the dual graph carries no curve (the triangles beyond an edge decrease); an edge outside gives a cycle, which is one; every lamination can be drawn twice (`Lam.double`), so closed components have parallel copies |
| C80 | `MultiArc.boundary` | `closeUsed` computes the edges met by no disjoint curve (`passed_iff`), the walk marks each unsheltered end once, the total is taut; disjointness from the explicit weights |
| C81 | `is_filling` | linear algebra over the links: all closed laminations are peripheral iff #vertices = #edges (three punctures); a multiarc with peripheral boundary fills (`fills_of_outline`); arcs, closed part and a third lamination that are pairwise disjoint are disjoint (`flag`) |
| C82 | `vertices`, `has_distinct_endpoints` | the link of a vertex is disjoint from L iff no weight or corner at the vertex is negative (`reaches_iff`); an arc becomes an edge after shortening (`arc_ends`); counting ends over the components (`distinct_iff`) |
| C83 | twists about multicurves | a curve that lies beside the multicurve is flat along the loop round the short edge (`belt_of_part`, `Beside.flat`), where one twist acts trivially; products and conjugation (`Enc.Holds`) |
| C84 | half twists about multiarcs | the factors are half twists about edges with no common ends; what each one does to edges that end elsewhere (`Built.spares`), to closed laminations and to links (`halftwist_acts`), for large powers through C83 and C80; product and conjugation |
| C85 | intersection zero iff disjoint | after shortening, the number is a sum of crossings with edges and with loops round edges; a loop round an edge is disjoint from `M` iff every strand of `M` goes along it (`crossings_iff`, with the corner weights of Spec/Union), an edge iff its weight is not positive; the parts are put together again by the flag property (`Unions.disjoint`) |
| C86 | flag property | a lamination disjoint from N and from M is disjoint from their union: the corner weights of a sum of laminations that agree in sign at every corner (`Flat`, `DisjointFrom.union`), then induction on the list |
| C87 | intersection is additive | each term of the sum is: `IsUnion.at_corner` (corner weights of parts), and the smallest corner weight round a loop is attained by both parts at the same corner (`IsRound.add`, colours of strands are constant round the loop) |
| C88 | crush: the new surface | the crushed triangulation is `T` with two labels exchanged; its vertices are read off from the corners (`Crushed.star_left/right`), the rest by C36 through the conjugators |
| C89 | lifting | the matrix of the lift in terms of corner weights (`LiftW`); the lift of a closed lamination is flat along the curve, hence disjoint; the crush of a flat lamination undoes it (`CrushW`) |
| C90 | crushing disjoint laminations | for a flat lamination no tightening happens, so the loops of `apply_lamination` compute the new weights (`CrushW`) and the assertions hold; defect of `Lift`'s assertion proved in general |
| C91 | is_separating | the components of the crushed triangulation are counted by comparing what is joined (`Crushed.components`); a division of the vertices into sides is the same as a division of the triangles of the crushed surface (`Crushed.sides_iff`); sides are carried through flips (`Separates.enc`) |
| C92 | crushes and disjoint unions | a colouring of the strands of a lamination is carried through a crush and through a lift (`CrushW.union`, `LiftW.union`); disjointness, connectedness and essentiality follow from that and from C89/C90 |
| C93 | MultiCurve.crush | `Crusher P D f g` collects what crushing along the curves `D` means; it holds for mappings (`D = []`) and for `Curve.crush` (`D = [c]`) and is closed under composition (`Crusher.comp`), so it is an invariant of the loop; the images of the later components are essential and connected by C92 |
| C94 | explore_ball | `FlipOf` (differ in one arc) is an equivalence-invariant relation on multiarcs carried by mappings; a flip of an edge changes exactly one arc (`flipOf_edges`), so `all_encodings` is a ball around the edges (`within_iff_encodings`) and the conjugator carries it back |
| C95 | vertex cycles | a simple cycle of the graph of turns is a curve without arcs that uses the arcs of `L` (`cycle_lam`, by counting passages through each triangle). Existence: take a closed walk of minimal length; if its curve were a disjoint union, tracing a strand of one part would give a shorter walk, since a strand traced forwards never is itself traced backwards (`orbit_half`) |
| C96 | simplify | `shorten` takes the image of the edges to a triangulation without positive weights, hence to the edges of the target. The code's comment (only the identity is periodic and acts trivially on homology) is proved for isometries by computing the trace of `1 - f` in two ways, over the edges and over the triangles, of which the first is too large and the second too small when no edge is fixed (`Proofs/Torelli.lean`). So at most one candidate passes. The closer and the conjugator are undone to get equality. |
| C97 | boundary_union, fills_with | A crush that returns always returns a consistent lamination with the right class (`Tidy` in `Proofs/MultiCrush.lean`: `promote` looks at all dual weights), also for laminations that cross the multicurve, so C80 and C81 apply to it, and C93 says what lifting does to the boundary. `P` must return the class that describes the lamination (`TellsClass`), which `classAll` does (C68). |
| C98 | tight_paths | Case by case, by induction on the length. Lengths 0-2 from C70, C85 and C97; for that the classes of what `boundary` and `boundary_union` return have to be right (`boundary_class`, `lift_class`: every part of a crush and of its inverse keeps classes right). For length 3 and more: the members of the ball are triangulations (C94), the union of all edges is one of its sublaminations (C72), its boundary is empty (C79, C80), and so is its lift; an empty lamination is not a `MultiCurve`. |
| C99 | quasiconvex, tight geodesics, distance | `Spec/Geodesic.lean` defines walks in the complex of multicurves and what `networkx.shortest_path` does. The moves of the conjugators keep multicurves and classes, slices of legal encodings are legal (C17), and a vertex cycle is a curve (C95, here for any `promote` that returns right classes). The set comprehension is an invariant of three nested folds; what tight paths consist of is C98. The edges of the graph are just the adjacent pairs (C70, C85), so the walk of the graph is a walk of the complex, and shortest among those through its vertices. Tightening: induction along the walk, with C97. |
| C100 | relative_twisting | The exceptions from C85 (zero exactly for disjoint laminations: a connected curve that is not peripheral has no peripheral component) and `is_peripheral`. The twists are powers of one bijection (C60), so the opposite twist goes back, and disjointness from `a` is carried along because the twists fix `a` (C83). Termination from C76. That the number counts twists (`a.relative_twisting(b, t(b)) == m` for the `m`-th twist `t`) is not proved: it needs the intersection numbers of twisted curves with curves that cross them. |
| C101 | flip_mapping | Induction along the path of the mapping. For a multiflip: `encode` of the list of its edges is the list of single flips (C29, with the list read from right to left, C46), the moves that are made have the same effect on laminations and chains (C29), and dropping identity isometries at the ends does not matter. Twists and half twists as moves are not part of the sequences here. |

Not expressible in the model: floating point (`numpy` eigenvalue estimates in invariant laminations), the GUI
(`curver/application`), drawing, printing, wall-clock and memory use. Nothing is claimed about them.

## 4. Trusted base

Lean 4.33.0 kernel; axioms `propext`, `Classical.choice`, `Quot.sound` only (checked with `#print axioms`; vcheck repeats this);
our reading of the Python source (each definition cites its lines).

### What is modelled

| source file | modelled (in `Verif/Model`) | not modelled |
|---|---|---|
| `utilities.py` | b64, cyclic_slice, maximin/maximum/maxes, Half, word parser | `matrix_vector` helpers used by crush, string_generator's laziness |
| `permutation.py` | everything (`Permutation.lean`) | |
| `structures.py` | UnionFind, StraightLineProgram (`UnionFind.lean`, `SLP.lean`) | |
| `decorators.py` | memoize as a state machine over call histories (`Memo.lean`) | topological_invariant/conjugacy dispatch registries |
| `triangulation.py` | constructor, from_tuple, sig, surface, max_order bound, components, dual_tree, homology matrix, flips, find_isometry, isometries_to, sums, edge curves/arcs, relabel, multiflip, Pachner 1-3, encode, all_encodings | edge order of printing |
| `moves.py` | EdgeFlip, MultiEdgeFlip, Isometry with all their actions and packages | |
| `encoding.py` | Encoding, Mapping, MappingClass: composition, inverse, powers, slices, equality, hash, order, vertex maps, pl_action, invariant lamination cell test, combine_isometries, simplify, flip_mapping, create_encoding | Nielsen-Thurston classification, translation lengths, conjugacy, flip_mapping of Twist and HalfTwist moves |
| `lamination.py` | weights, dual/left/right weights, sums, multiples, peripheral parts, parallel_components, is_short, trace_curve, shorten, promote, components, intersection, and the methods built on `components`, is_polygonalisation, is_filling | topological_type, floating point comparisons (`drop`, an arbitrary function) |
| `curvegraph.py` | quasiconvex, tight_paths, all_tight_geodesic_multicurves, tight_geodesic, geodesic, distance (sets are lists without repetition; `networkx.simple_cycles` and `networkx.shortest_path` are parameters) | the constants of `__init__`, except QUASICONVEXITY |
| `curve.py` | parallel, is_short, slope, encode_twist, Curve.crush, Curve.is_separating, MultiCurve.crush, vertex_cycles (`networkx.simple_cycles` is a parameter), vertex_cycle, boundary_union, fills_with, relative_twisting | |
| `arc.py` | is_short, parallel, vertices, has_distinct_endpoints and encode_halftwist of multiarcs, boundary (also of laminations with closed components), is_triangulation, explore_ball | disjoint arcs |
| `twist.py` | Twist and HalfTwist (all but pl_action; `arc.boundary().encode_twist` is a parameter of the half twist) | pl_action |
| `homology.py` | everything | |
| `PL.py` | everything | |
| `finite.py` | from_generators | quotient orbifolds, conjugacy |
| `mappingclassgroup.py` | names, letters, mapping_class, random_word, cayley | |
| `crush.py` | LinearTransformation, Crush.apply_lamination, Lift.apply_lamination | apply_homology (raises NotImplementedError) |
| `load.py` | the whole table of surfaces, curves and arcs | |
| `create.py` | the factories used above | |
| `application/` | | not modelled |

### Simplifications (repeated in the comments of the definitions)

* `promote()` (the run-time class of a lamination) is a parameter `P` of the functions that use it; theorems hold for every `P`, in particular for the class that `shorten` finds (`classAll` in `LamParts.lean`), which C68 shows to be right.
* Python `set` and `dict` iteration order is a list order; theorems that could depend on it quantify over permutations.
* Recursion depth, memory and time are unbounded.  `while` loops use fuel which the theorems show to be sufficient, except in `shorten` (and `encode_twist`, `components`, `intersection` of laminations that are not short), where most theorems hold for every amount of fuel for which a result is returned.  C73-C76 prove termination of these when there is no acceleration (`drop=0`), and that more fuel never changes a result (`C73_bounds`).
* Weights are in an ordered ring with partial halving (`int`) or total halving (`Fraction`, real algebraic numbers); floating point numbers are not covered.

## 5. Findings: where the code and its documentation disagree

Each item marked with a theorem is proved in the model.

1. `from_tuple` accepts an odd number of triangles with one surplus label (`C05_odd_is_accepted`; exact acceptance `C05_accepted_iff`).
2. `encode_relabel_edges` accepts label bijections that do not commute with `~` (`C11_unsigned_is_accepted`).
3. `Triangulation.encode` with an incomplete dict raises TypeError (`C46_incomplete_dict_raises`).
4. `~~h` can have fewer moves than `h` (`C15_double_inverse_needs_reduced`).
5. `combine_isometries` does not always leave an isometry at the front: the identity is dropped (`C30_identity_is_dropped`).
6. `Triangulation.sum`/`disjoint_sum` count repeated laminations once (`C40_repeats_are_lost`); `n * L` loses the class of `L` (`C40_multiple_loses_class`).
7. memoize: methods that return exception objects have them raised; methods with the same name share cache entries (`C27_*`).
8. A slice with start < -len and stop 0 raises AssertionError (`C17_far_start`); slice steps are not checked; `h[i:i]` with i > len raises IndexError.
9. `load('S_1_2p')` uses `S.curves['p_0']`, which is never defined: KeyError (`C39_S_1_2p`); `load('SB_n')`, n < 3: AssertionError (`C39_braid`).
10. The word parser accepts `'a)(b'` and returns `b`; `'^2'` alone raises IndexError; other characters are ignored (`C31_*`).
11. `cayley(generators, length=0)` still yields words of length 1 (`C45_length_zero`).
12. `FiniteSubgroup.from_generators` confuses the names `'aa'` and `'a'` twice (`C44_names_collide`), and keeps repeated values (`C44_repeated_generators`).
13. The PL constructor drops zero rows of the action too (`C28_zero_rows_are_dropped`); `pl_action` of the empty multiflip cannot be applied (`C28_empty_multiflip`).
14. `Permutation.from_index` with index >= N! raises IndexError (`C03_too_large`).
15. `encode_pachner_1_3` is wrong or raises ValueError on laminations with arcs (`C37_arcs`).
16. `peripheral()` of a non-integral lamination has class MultiCurve/Curve with fractional weights (read, not proved).
17. `StraightLineProgram.__contains__` compares `Terminal(value)` with raw values, so is always False (read, not proved).
18. `UnionFind.__call__` path compression and `union2` ranks use the wrong element; performance only (C21 holds regardless).
19. `landau`'s comment `b >= a*ln(a)` fails for a = 3, the final bound holds.
20. `b64encode` of a negative number loops forever; `projective_invariant_lamination(curves=[...])` is unhashable under memoize.
21. `Mapping.__eq__` with an Encoding that is not a Mapping raises AttributeError.
22. `find_isometry` can raise KeyError for label maps between triangulations of different sizes.
23. `IntegralLamination.intersection` computes the peripheral contribution from the unconjugated laminations and the vertices of the short triangulation, so `a.intersection(c) == 1` and `c.intersection(a) == 3` can happen (`C63_not_symmetric`).
24. twist.py leaves "the right number of flips" as `Proof: TODO`: it is right (`C52_number_of_flips`).  "At most three twists" through the danger zone: two suffice.  The slope docstring is right (`C54_slope`).
25. twist.py leaves "Prove this always works" for the half twist (checked by its authors up to genus 20): it does (`C56_construction`).
26. `sublaminations` uses permutations rather than combinations, so unions of several components are repeated (`C72_sublaminations_repeat`).
27. `boundary()` of an arc and the curve next to it on the torus has half as many curves as it should, as `disjoint_sum` of a list ignores repeated entries (`C80_copies_lost`).
28. `is_filling` is wrong on surfaces that are not connected: a component of the surface in which the lamination only goes round a vertex passes the tests (`C81_disconnected`).  `MultiCurve.is_filling` is False even on the sphere with three punctures, which the empty lamination fills.
29. `Lift.apply_lamination` asserts that the lamination is empty near the vertices whose peripheral curves lift to *peripheral* curves, that is near the old vertices, instead of near the two new ones.  So an arc that is disjoint from `c` is crushed correctly but its image can never be lifted back: AssertionError (`C90_arcs_do_not_lift`).
30. `is_separating` of a peripheral curve is always False, because its crush is the identity; but the complement of that curve has one more component, and the docstring promises True (`C91_peripheral`).
31. `vertex_cycles` does not yield all the curves that use the normal arcs of the multicurve and pass through each edge at most twice, as documented: it misses those that pass twice through an edge in the same direction, such as the curve with weights 1, 1, 2 on the torus for itself (`C95_misses`).
32. `c.boundary_union(other)`, documented to be the boundary of a neighbourhood of the union of `c` and `other`, forgets `c`: for closed curves that do not cross `c` the result is twice what is left of `other` when the components of `c` are removed (`C97_closed`). With itself, a curve gives the empty lamination.
33. `c.fills_with(other)` is `False` for every closed `other` when `c` has a component around a vertex (`C97_peripheral`), even if the other components of `c` fill with `other`: on the torus, adding the curve around the puncture turns `True` into `False`.
34. `CurveGraph.tight_paths(a, b, length)` never returns a path when `length` is at least 3 (`C98_never`): if `a.fills_with(b)` is `False` it returns the empty set, and otherwise the set of candidates for the second entry contains the empty lamination (the lift of the boundary of a whole triangulation), for which the assertion `isinstance(a, MultiCurve)` of the recursive call fails. So `all_tight_geodesic_multicurves`, and all that is built on it, fails as soon as two of the curves of its guide fill the surface.
35. `CurveGraph.distance(a, b)`, `geodesic`, `tight_geodesic` and `all_tight_geodesic_multicurves` raise an error for every two curves with `a.fills_with(b)` (`C99_filling`): a consequence of 34, since `tight_paths` is called for the lengths up to 62. So no distance between curves that fill the surface is ever found.
36. The graph of `tight_geodesic` is made from its edges, so a multicurve without neighbours is not a vertex: `distance(a, a)` raises `NodeNotFound` instead of returning 0 when `a` is the only multicurve that is considered, as for a short curve on a torus with two punctures (example in `Props/Geodesic.lean`).
37. `flip_mapping()` raises `AssertionError` for a mapping with a multiflip of no edges (`T.encode([set()])` is accepted and is the identity): it calls `encode([])` (`C101_iff`).

## 6. Not proved, on purpose out of the statements

* That the self image and homology action determine a mapping class (topology, Alexander's trick): `C47_*` prove what the code compares.
* That `Twist.apply_lamination` agrees with the flips for laminations with arcs (C53 is stated for laminations without arcs).
* That the square of a half twist is the twist about the boundary of its arc (hypothesis of `C56_powers`).
* That `shorten(drop)` terminates when `drop > 0` (the default is 0.1) for laminations that are not light: an accelerating twist may raise the weights, and the code takes no precaution.  C73-C76 are about `drop = 0`, and about light multiarcs for all `drop`; the other properties of `shorten` (C58-C72) are about all results that it returns, for every `drop` and every bound on loops and recursion.
* What `Crush.apply_lamination` does to laminations that cross the curve (the tightening loops are modelled, and C88-C90 are about what is disjoint from the curve), and so that `Curve.crush` always returns: at its end it crushes the arcs of the triangulation.  C88-C90 are about all crushes that are returned.
* That geometric intersection numbers computed by `intersection` do not depend on the triangulation (and with peripheral components they do, finding 23).
- C96: that `simplify` never raises `ValueError`. It needs that a mapping that takes the edges of one triangulation to the edges of another is equal to an isometry; what is proved is that it raises exactly when no such isometry exists.
- C97: that the result of `boundary_union` does not cross `other`, when `other` crosses the multicurve (it is closed and does not cross the multicurve), and that `fills_with` is right about the uncrushed surface: both need what a crush does to laminations that cross the curve.
- C98: that the middle entry of a path of length 2 does not cross `b` (the same gap as for C97), and so that the paths are paths in the complex of multicurves.
- C99: that the last two entries of a tight geodesic do not cross (again the gap of C97); that the curves of `quasiconvex` are near a geodesic, so that the walk of C99_distance is shortest among all walks (the theorems of Masur and Minsky, and Bowditch, on hyperbolicity); and when the methods return.
- C100: that the number counts twists (`a.relative_twisting(b, t(b)) == m` for the `m`-th power `t` of the twist about `a`): this needs the intersection numbers of twisted curves with curves that cross them.
