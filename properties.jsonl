{"id": "C01", "title": "Oriented edge algebra", "statement": "~~e == e, e and ~e have the same non-negative index and opposite signs, exactly one of the two has a given sign s and e.set_sign(s) returns it; an edge is determined by its index and sign.", "quantifier": "every integer edge label", "why_tests_cant": "labels are unbounded integers; a sample cannot cover all of them", "anchors": ["curver/kernel/triangulation.py:norm", "curver/kernel/triangulation.py:Edge"]}
{"id": "C02", "title": "Base 64 codec is lossless", "statement": "b64decode(b64encode(n)) == n for every n >= 0, hence distinct numbers get distinct strings; the strings never contain '_' and use only the 64 letter alphabet; b64decode reads digits least significant first.", "quantifier": "every natural number n and every string over the alphabet", "why_tests_cant": "integers are unbounded (signatures of large surfaces are hundreds of digits)", "anchors": ["curver/kernel/utilities.py:b64encode", "curver/kernel/utilities.py:b64decode"]}
{"id": "C03", "title": "Permutation index is the lexicographic rank and a bijection", "statement": "For every permutation p of 0..N-1, from_index(N, p.index()) == p; for every 0 <= i < N!, from_index(N, i) is a permutation whose index is i; index < N!; p is lexicographically smaller than q iff p.index() < q.index().", "quantifier": "every N, every permutation in Sym(N), every index below N!", "why_tests_cant": "N! grows super-exponentially", "anchors": ["curver/kernel/permutation.py:Permutation.index", "curver/kernel/permutation.py:Permutation.from_index"]}
{"id": "C04", "title": "Triangulation signature round trip", "statement": "triangulation_from_sig(T.sig()) == T for every triangulation T; consequently two triangulations have the same signature string iff they are equal.", "quantifier": "every valid triangulation, of any size, connected or not", "why_tests_cant": "test suite only uses 13 fixed signatures", "anchors": ["curver/kernel/triangulation.py:Triangulation.sig", "curver/kernel/triangulation.py:Triangulation.from_sig", "curver/kernel/triangulation.py:Triangulation.package"]}
{"id": "C05", "title": "create_triangulation accepts exactly the labellings with no label missing", "statement": "create_triangulation succeeds iff it is given a non-empty list of triples in which each of 0..zeta-1 and ~0..~(zeta-1) occurs, zeta being half the number of labels rounded down; for an even number of triples these are exactly the labellings in which each occurs exactly once, and the result is then a valid triangulation containing exactly the given triangles. Otherwise it raises AssertionError (empty list, not triples) or TypeError (a label missing). (With an odd number of triples a surplus label is tolerated: a defect of the check.)", "quantifier": "every list of integer triples", "why_tests_cant": "infinitely many malformed inputs", "anchors": ["curver/kernel/triangulation.py:Triangulation.from_tuple"]}
{"id": "C06", "title": "Triangulations are compared by gluing, not by presentation", "statement": "Listing the triangles in another order or starting each triple at another of its edges gives an equal triangulation; two triangulations are equal iff they glue the same oriented edges in the same cyclic triples; package()/pickle rebuilds an equal triangulation.", "quantifier": "every valid triangulation and every re-presentation of it", "why_tests_cant": "factorially many presentations", "anchors": ["curver/kernel/triangulation.py:Triangle", "curver/kernel/triangulation.py:Triangulation.__init__", "curver/kernel/triangulation.py:Triangulation.__eq__", "curver/kernel/triangulation.py:Triangulation.package"]}
{"id": "C07", "title": "Vertices are the rotation orbits", "statement": "T.vertices partitions the oriented edges: each oriented edge is in exactly one vertex, two oriented edges are in the same vertex iff one is reached from the other by rotating anticlockwise about its tail, each vertex is listed in that rotation order starting from its least edge; the constructor terminates.", "quantifier": "every valid triangulation", "why_tests_cant": "sizes and gluings unbounded", "anchors": ["curver/kernel/triangulation.py:Triangulation.__init__ (vertices loop)", "curver/kernel/triangulation.py:Triangulation.vertex_lookup"]}
{"id": "C08", "title": "Flipping gives a triangulation and flipping back restores it", "statement": "For every flippable edge e, T.encode_flip(e) succeeds, its target is a valid triangulation with the same number of edges, only the two triangles at e change (new diagonal joins the opposite corners), and flipping ~e in the target gives back exactly T (same labels). Flipping an unflippable edge fails.", "quantifier": "every valid triangulation and every edge", "why_tests_cant": "unbounded triangulations; degenerate squares where sides coincide", "anchors": ["curver/kernel/triangulation.py:Triangulation.encode_flip", "curver/kernel/triangulation.py:Triangulation.encode_multiflip", "curver/kernel/triangulation.py:Triangulation.square", "curver/kernel/triangulation.py:Triangulation.is_flippable", "curver/kernel/moves.py:EdgeFlip"]}
{"id": "C09", "title": "Flips act reversibly on laminations", "statement": "Applying a flip and then its inverse to any lamination (curves, arcs, mixtures, weights of any kind) gives back the same weights and class; flips are therefore bijections between the laminations of the two triangulations.", "quantifier": "every flippable edge of every triangulation, every consistent weight vector (integers or elements of an ordered field)", "why_tests_cant": "weights are unbounded and the update rule has nine interacting cases", "anchors": ["curver/kernel/moves.py:EdgeFlip.apply_lamination", "curver/kernel/moves.py:EdgeFlip.__init__", "curver/kernel/create.py:edgeflip"]}
{"id": "C10", "title": "Flips keep laminations consistent and never fail", "statement": "For a lamination whose weights are consistent in every triangle (dual weights halvable), applying a flip never raises, gives one weight per edge, changes only the flipped edge and gives weights that are again consistent in every triangle.", "quantifier": "every flippable edge, every consistent integral lamination", "why_tests_cant": "unbounded weights", "anchors": ["curver/kernel/moves.py:EdgeFlip.apply_lamination", "curver/kernel/lamination.py:Lamination.dual_weight", "curver/kernel/utilities.py:Half"]}
{"id": "C11", "title": "Isometries and relabellings act functorially and reversibly", "statement": "encode_relabel_edges with any signed bijection of the labels succeeds, the image lamination/homology class of an edge's weight is found on the image edge, the inverse undoes it, partial maps are completed by ~ and a missing index raises ValueError.", "quantifier": "every triangulation, every signed relabelling, every lamination and homology class", "why_tests_cant": "factorially many relabellings", "anchors": ["curver/kernel/triangulation.py:Triangulation.encode_relabel_edges", "curver/kernel/moves.py:Isometry", "curver/kernel/create.py:isometry"]}
{"id": "C12", "title": "find_isometry is sound and complete", "statement": "If find_isometry(other, label_map) returns an isometry then it is a bijection of the oriented edges that respects ~ and the cyclic order in every triangle and extends label_map; if some isometry extends a label_map that meets every component then exactly that isometry is returned; otherwise ValueError is raised.", "quantifier": "every pair of triangulations and every seed label map", "why_tests_cant": "arbitrary sizes and seed maps", "anchors": ["curver/kernel/triangulation.py:Triangulation.find_isometry"]}
{"id": "C13", "title": "isometries_to lists every isometry exactly once", "statement": "T1.isometries_to(T2) yields every isometry from T1 to T2, each exactly once and nothing else; is_isometric_to says whether one exists; in particular self_isometries contains the identity.", "quantifier": "every pair of valid triangulations (connected or not)", "why_tests_cant": "the vertex-valence pruning could drop an isometry only on some gluing not sampled", "anchors": ["curver/kernel/triangulation.py:Triangulation.isometries_to", "curver/kernel/triangulation.py:Triangulation.self_isometries", "curver/kernel/triangulation.py:Triangulation.is_isometric_to"]}
{"id": "C14", "title": "Composition of encodings is composition of maps", "statement": "(g * h)(x) == g(h(x)) for laminations and homology classes, composition is associative, id_encoding is neutral, encodings only compose / apply when triangulations match (ValueError otherwise) and the identity isometries dropped by the constructor never change the map.", "quantifier": "every composable pair/triple of encodings and every lamination or homology class", "why_tests_cant": "sequences of moves are unbounded", "anchors": ["curver/kernel/encoding.py:Encoding.__mul__", "curver/kernel/encoding.py:Encoding.__call__", "curver/kernel/encoding.py:Encoding.__init__"]}
{"id": "C15", "title": "Inverse encodings undo encodings", "statement": "For every mapping h built from flips, multi-flips and isometries: (~h)(h(x)) == x for every lamination x on the source and h((~h)(y)) == y for every y on the target; ~~h has the same moves as h; ~(g*h) has the moves of ~h * ~g.", "quantifier": "every such mapping (any length) and every consistent lamination", "why_tests_cant": "unbounded flip sequences", "anchors": ["curver/kernel/encoding.py:Encoding.inverse", "curver/kernel/moves.py:Move.inverse", "curver/kernel/create.py:link"]}
{"id": "C16", "title": "Powers of mapping classes", "statement": "h**k acts as k applications of h for k > 0, is the identity for k = 0, acts as |k| applications of ~h for k < 0; h(x, power=k) == (h**k)(x); h**(j+k) == h**j * h**k as maps.", "quantifier": "every mapping class and all integers j, k", "why_tests_cant": "k unbounded in both directions", "anchors": ["curver/kernel/encoding.py:MappingClass.__pow__", "curver/kernel/encoding.py:MappingClass.__call__"]}
{"id": "C17", "title": "Slicing an encoding", "statement": "For 0 <= i <= j <= len(h): h[:i] * h[i:j] * h[j:] acts as h, including empty slices; h[i:i] is the identity encoding on the triangulation between moves; reversed bounds raise IndexError.", "quantifier": "every encoding and all slice bounds", "why_tests_cant": "quadratically many slices of unbounded sequences", "anchors": ["curver/kernel/encoding.py:Encoding.__getitem__"]}
{"id": "C18", "title": "order() returns the least period", "statement": "If h.order() == k > 0 then h**k fixes the triangulation's edges as a multiarc and acts trivially on homology and no smaller positive power does; order() == 0 iff no power up to max_order() does; is_identity, is_periodic, is_in_torelli agree with it.", "quantifier": "every mapping class", "why_tests_cant": "search interleaves two cached iterates; all histories matter", "anchors": ["curver/kernel/encoding.py:MappingClass.order", "curver/kernel/encoding.py:MappingClass.is_identity", "curver/kernel/encoding.py:MappingClass.is_periodic"]}
{"id": "C19", "title": "Packaging / pickling an encoding", "statement": "h.source_triangulation.encode(h.package()) rebuilds the same sequence of moves as h (flips, multi-flips, isometries), so pickling preserves the map.", "quantifier": "every mapping made of flips, multiflips and isometries", "why_tests_cant": "unbounded sequences", "anchors": ["curver/kernel/encoding.py:Encoding.package", "curver/kernel/encoding.py:create_encoding", "curver/kernel/triangulation.py:Triangulation.encode"]}
{"id": "C20", "title": "Straight line programs denote lists", "statement": "list(a + b) == list(a) + list(b); list(a * n) == list(a) * n; reverse, map and sum act as on lists; len is the list length; a[i] is list(a)[i] for -len <= i < len and IndexError otherwise; iteration terminates.", "quantifier": "every straight line program and every multiplicity n >= 0", "why_tests_cant": "programs denote exponentially long lists", "anchors": ["curver/kernel/structures.py:StraightLineProgram"]}
{"id": "C21", "title": "Union-find refines an equivalence relation", "statement": "After any history of union/find/iterate operations two items are in the same group iff they are connected by the unions performed so far; find never changes the grouping; iteration yields a partition of the items in first-seen order; len is the number of groups; every operation terminates.", "quantifier": "every item list and every operation history", "why_tests_cant": "history dependent path compression", "anchors": ["curver/kernel/structures.py:UnionFind"]}
{"id": "C22", "title": "Early-exit extrema are exact", "statement": "maximin(*xs) == max(min(x) for x in xs) and raises ValueError exactly when max/min would; maximum(xs, key, bound) == the first maximal item when no key exceeds bound, in general the first item whose key reaches bound else the first maximal one; maxes returns exactly the maximal items in order.", "quantifier": "all finite lists over any ordered values", "why_tests_cant": "early termination must be right for every ordering of the input", "anchors": ["curver/kernel/utilities.py:maximin", "curver/kernel/utilities.py:maximum", "curver/kernel/utilities.py:maxes"]}
{"id": "C23", "title": "cyclic_slice", "statement": "cyclic_slice(L, x, y) starts at the first occurrence of x, contains consecutive items of L read cyclically and stops just before y; without y (or when y is absent) it is the whole rotation; cyclic_slice(L,x,y) + cyclic_slice(L,y,x) is a rotation of L when x != y are in a duplicate-free L; missing x raises ValueError.", "quantifier": "all lists and items", "why_tests_cant": "all lists", "anchors": ["curver/kernel/utilities.py:cyclic_slice"]}
{"id": "C24", "title": "Permutations form a group", "statement": "Composition is (p*q)(i) = p(q(i)), associative, ~p is a two-sided inverse, p**n is n-fold composition for every integer n (negative too) with p**(m+n) == p**m * p**n; size mismatch raises ValueError; from_dict conjugates by the ordering.", "quantifier": "every N and all permutations, all integer exponents", "why_tests_cant": "factorially many permutations", "anchors": ["curver/kernel/permutation.py:Permutation"]}
{"id": "C25", "title": "Permutation order and parity", "statement": "order() terminates and returns the least k >= 1 with p**k the identity; is_even is a homomorphism to Z/2 that is False on transpositions (agrees with the sign); matrix() is multiplicative.", "quantifier": "every permutation", "why_tests_cant": "factorially many", "anchors": ["curver/kernel/permutation.py:Permutation.order", "curver/kernel/permutation.py:Permutation.is_even", "curver/kernel/permutation.py:Permutation.matrix"]}
{"id": "C26", "title": "Permutation conjugacy test is exact", "statement": "cycle_lengths() is the sorted list of cycle lengths and p.is_conjugate_to(q) iff some permutation r of the same size has r p r^-1 == q.", "quantifier": "every pair of permutations", "why_tests_cant": "quantifies over all conjugators", "anchors": ["curver/kernel/permutation.py:Permutation.cycle_lengths", "curver/kernel/permutation.py:Permutation.is_conjugate_to"]}
{"id": "C27", "title": "Memoisation is transparent", "statement": "For a deterministic method, any history of memoised calls (interleaved over objects, arguments, exceptions and set_cache with the true answer) returns/raises at each call exactly what the undecorated method would, evaluating it at most once per object and argument tuple.", "quantifier": "every call history", "why_tests_cant": "histories are unbounded", "anchors": ["curver/kernel/decorators.py:memoize", "curver/kernel/decorators.py:memoizable"]}
{"id": "C28", "title": "Partial linear functions compose and describe the action", "statement": "(F*G)(x) == F(G(x)) whenever G then F are defined and x is in the domain of F*G iff x in dom G and G(x) in dom F; for every mapping of flips, multiflips, isometries and every multicurve c, h.pl_action(c)(c) == h(c) and any other multicurve in the same cell is also mapped by that matrix to its image.", "quantifier": "all matrices, all mappings, all multicurves", "why_tests_cant": "unbounded dimensions, weights and words", "anchors": ["curver/kernel/PL.py:PartialLinearFunction", "curver/kernel/encoding.py:Mapping.pl_action", "curver/kernel/moves.py:EdgeFlip.pl_action", "curver/kernel/moves.py:Isometry.pl_action", "curver/kernel/moves.py:MultiEdgeFlip.pl_action"]}
{"id": "C29", "title": "A multi-flip equals its flips in any order", "statement": "encode_multiflip(edges) on edges with disjoint support has the same target triangulation and the same action on laminations and homology as flipping the edges one at a time in any order; overlapping supports are rejected.", "quantifier": "every triangulation and every set of edges", "why_tests_cant": "exponentially many edge sets, factorially many orders", "anchors": ["curver/kernel/triangulation.py:Triangulation.encode_multiflip", "curver/kernel/moves.py:MultiEdgeFlip"]}
{"id": "C30", "title": "combine_isometries preserves the mapping", "statement": "h.combine_isometries() is a mapping with the same source and target and the same action as h that contains exactly one isometry, at the front.", "quantifier": "every mapping of flips, multiflips and isometries", "why_tests_cant": "unbounded words", "anchors": ["curver/kernel/encoding.py:Mapping.combine_isometries"]}
{"id": "C31", "title": "Words denote products", "statement": "S('...') evaluates a word with names, '.', parentheses, (negative) powers and white space to the product of the named mapping classes: concatenation is composition, w^n is the n-th power, w^-n the inverse power, capitalised names are inverses; rows of names are cut longest name first; every other string whose tokens cannot be read (a row that cannot be cut, parentheses that do not match, an exponent without number or base) raises ValueError or IndexError. (Strings such as 'a)(b' or 'a!b' are accepted; this is recorded as theorems.)", "quantifier": "every generating set with valid names and every input string", "why_tests_cant": "strings are unbounded", "anchors": ["curver/kernel/mappingclassgroup.py:MappingClassGroup.mapping_class", "curver/kernel/mappingclassgroup.py:MappingClassGroup.__init__"]}
{"id": "C32", "title": "Canonical form decides homology", "statement": "hc.canonical() is homologous to hc (differs by a combination of triangle boundaries) and is zero on the dual tree; two classes are == iff they are homologous relative to the vertices; == is an equivalence relation compatible with hash, +, -; homology_matrix() terminates.", "quantifier": "every triangulation and all integer vectors", "why_tests_cant": "unbounded coefficients and gluings", "anchors": ["curver/kernel/homology.py:HomologyClass.canonical", "curver/kernel/homology.py:HomologyClass.__eq__", "curver/kernel/triangulation.py:Triangulation.homology_matrix"]}
{"id": "C33", "title": "Moves act on homology", "statement": "Flips, multi-flips and isometries send homologous classes to homologous classes, are additive, and a move followed by its inverse returns a homologous class; hence mappings act on H_1 as isomorphisms compatible with composition.", "quantifier": "every move/mapping and all classes", "why_tests_cant": "unbounded coefficients", "anchors": ["curver/kernel/moves.py:EdgeFlip.apply_homology", "curver/kernel/moves.py:Isometry.apply_homology", "curver/kernel/moves.py:MultiEdgeFlip.apply_homology"]}
{"id": "C34", "title": "dual_tree is a maximal forest", "statement": "dual_tree(avoid) never uses an avoided index, contains no cycle of the dual graph, connects any two triangles that can be connected without crossing avoided edges, and is the numerically first such set (greedy).", "quantifier": "every triangulation and avoid set", "why_tests_cant": "graphs unbounded", "anchors": ["curver/kernel/triangulation.py:Triangulation.dual_tree"]}
{"id": "C35", "title": "components are the connected components", "statement": "components() partitions the oriented edges; e and f are in the same component iff one can walk from e to f by reversing edges and turning inside triangles; is_connected iff there is exactly one.", "quantifier": "every triangulation", "why_tests_cant": "unbounded", "anchors": ["curver/kernel/triangulation.py:Triangulation.components", "curver/kernel/triangulation.py:Triangulation.is_connected"]}
{"id": "C36", "title": "Topology is a flip invariant", "statement": "Flips, multi-flips and relabellings preserve the number of vertices, edges, triangles, components and hence Euler characteristic; the genus reported by surface() is an exact (not rounded) quotient: p - e + 2e/3 = 2 - 2g for every component.", "quantifier": "every triangulation and every flip/relabel sequence", "why_tests_cant": "unbounded words", "anchors": ["curver/kernel/triangulation.py:Triangulation.surface", "curver/kernel/triangulation.py:Triangulation.vertices", "curver/kernel/triangulation.py:Triangulation.euler_characteristic"]}
{"id": "C37", "title": "Pachner subdivision", "statement": "encode_pachner_1_3 always yields a valid triangulation with 3 new edges and one new puncture per chosen triangle and the same genus, maps a lamination without arcs to one without arcs that has the original weights on the old edges and the corner weights on the new ones, and its inverse undoes it on images.", "quantifier": "every triangulation, set of triangles and multicurve", "why_tests_cant": "unbounded", "anchors": ["curver/kernel/triangulation.py:Triangulation.encode_pachner_1_3", "curver/kernel/crush.py:LinearTransformation"]}
{"id": "C38", "title": "load(g, n) always builds the right surface, curves and arcs", "statement": "For every g >= 0, n >= 1 with 6g+3n-6 >= 3, load(g, n) succeeds: its triangulation is valid and connected, has 6g+3n-6 edges and n vertices and its surface() is genus g with chi = 2-2g-n; exactly the names a_i, b_i (0<=i<g), c_i (0<=i<g-1), d_i (1<=i<g), p_i (1<=i<n, g>=1) are curves and s_i (0<=i<n, n>=2) are arcs; every curve is a non-empty lamination with no arcs and every arc is an edge joining two different vertices. Every other pair of integers raises ValueError.", "quantifier": "every genus and number of punctures", "why_tests_cant": "infinitely many surfaces; tests cover thirteen", "anchors": ["curver/load.py:load", "curver/load.py:S_0_n", "curver/load.py:S_1_n", "curver/load.py:S_2_n", "curver/load.py:S_3_n", "curver/load.py:S_g_n"]}
{"id": "C39", "title": "load by name only uses existing generators", "statement": "load(name) for the flipper names S_0_4, S_1_1, S_1_2, S_2_1, ..., S_5_1 succeeds, with the triangulation of load(g, n) and only curves and arcs load(g, n) defines; SB_n is load(0, n) for n >= 3 and raises AssertionError for n < 3; the remaining advertised name S_1_2p always raises KeyError (it refers to p_0, which is never defined); every other string raises ValueError.", "quantifier": "every accepted name", "why_tests_cant": "name tables for parametrised families", "anchors": ["curver/load.py:load_old"]}
{"id": "C40", "title": "Lamination arithmetic is weightwise", "statement": "a + b, n * a, T.sum and T.disjoint_sum give the weightwise (multiplicity weighted) sums, are commutative/associative and independent of the order of summands, reject laminations on other triangulations and negative multiplicities with ValueError, and the empty sum is the empty lamination.", "quantifier": "all laminations, all multiplicities", "why_tests_cant": "unbounded", "anchors": ["curver/kernel/lamination.py:Lamination.__add__", "curver/kernel/lamination.py:IntegralLamination.__mul__", "curver/kernel/triangulation.py:Triangulation.sum", "curver/kernel/triangulation.py:Triangulation.disjoint_sum"]}
{"id": "C41", "title": "Dual weights determine the lamination", "statement": "In each triangle the weight of a side is recovered from the dual weights of its corners; dual weights are consistent with left/right weights, symmetric under rotation; at most one of the three dual weights is negative; halving fails exactly when the weights are inconsistent.", "quantifier": "all weights", "why_tests_cant": "unbounded weights", "anchors": ["curver/kernel/lamination.py:Lamination.dual_weight", "curver/kernel/lamination.py:Lamination.left_weight", "curver/kernel/lamination.py:Lamination.right_weight"]}
{"id": "C42", "title": "Peripheral part", "statement": "L.peripheral() consists of vertex links; L == L.peripheral() + L.non_peripheral() weightwise; non_peripheral() has no peripheral component left; is_peripheral/is_non_peripheral agree; the multiplicity at a vertex is the least left weight around it (0 if negative).", "quantifier": "all laminations on all triangulations", "why_tests_cant": "unbounded", "anchors": ["curver/kernel/lamination.py:Lamination.peripheral", "curver/kernel/lamination.py:Lamination.peripheral_components", "curver/kernel/lamination.py:Lamination.non_peripheral"]}
{"id": "C43", "title": "Flips respect peripheral components and vertices", "statement": "A flip maps the link of a vertex to the link of the corresponding vertex, vertex_map() of a mapping of flips and isometries is a well defined bijection between vertices compatible with composition, and flipping commutes with adding/removing peripheral components.", "quantifier": "all triangulations, flips, laminations", "why_tests_cant": "unbounded", "anchors": ["curver/kernel/encoding.py:Mapping.vertex_map", "curver/kernel/moves.py:EdgeFlip.apply_lamination", "curver/kernel/lamination.py:Lamination.shorten (peripheral handled separately)"]}
{"id": "C44", "title": "Finite subgroups are closed", "statement": "FiniteSubgroup.from_generators, when it terminates, returns mapping classes that contain the generators under their names, each stored under a word that evaluates to it; they are pairwise different when the generators are, and, when no string spells two words in the generator names (for example one-character names), they contain every product of generators, the identity and inverses. It terminates whenever the generators have finitely many products. Both provisos are needed.", "quantifier": "every dictionary of mapping classes of one triangulation, every number of rounds", "why_tests_cant": "search over all words", "anchors": ["curver/kernel/finite.py:FiniteSubgroup.from_generators"]}
{"id": "C45", "title": "Cayley graph exploration", "statement": "cayley(generators, length) yields exactly one word for every element that is a product of at most `length` generators, words are shortest possible for their element and never longer than length.", "quantifier": "every group, generating set and length", "why_tests_cant": "exponentially many words", "anchors": ["curver/kernel/mappingclassgroup.py:MappingClassGroup.cayley"]}
{"id": "C46", "title": "encode() dispatch conventions", "statement": "T.encode(seq) applies the items of seq from right to left: integers/edges flip, sets multiflip, complete dictionaries relabel, incomplete dictionaries are completed to an isometry back to T, None is the identity, moves and encodings are inserted as they are.", "quantifier": "every sequence", "why_tests_cant": "unbounded sequences mixing conventions", "anchors": ["curver/kernel/triangulation.py:Triangulation.encode"]}
{"id": "C47", "title": "Equality and hashing of mappings are consistent", "statement": "== on mappings is an equivalence relation, equal mappings have equal hashes, and mappings with different source or target are never equal; the same for laminations, triangulations and permutations.", "quantifier": "all mappings", "why_tests_cant": "pairs and triples of arbitrary values", "anchors": ["curver/kernel/encoding.py:Mapping.__eq__", "curver/kernel/encoding.py:Mapping.__hash__", "curver/kernel/lamination.py:Lamination.__eq__", "curver/kernel/triangulation.py:Triangulation.__hash__"]}
{"id": "C48", "title": "Products of iterables", "statement": "utilities.product multiplies all items in the documented order (left: later items on the left), returns start only for empty input; in particular multitwists/half-twists are the composition of all component twists.", "quantifier": "all lists over any monoid", "why_tests_cant": "all lists", "anchors": ["curver/kernel/utilities.py:product"]}
{"id": "C49", "title": "Exact halving", "statement": "half * x returns y with 2*y == x, of the same type, or raises ValueError exactly when no such integer exists.", "quantifier": "every integer and field element", "why_tests_cant": "unbounded", "anchors": ["curver/kernel/utilities.py:Half"]}
{"id": "C50", "title": "Random words", "statement": "random_word(length) returns exactly `length` letters, each from the allowed (positive/negative/all/specified) letters whatever the random choices; asking for neither sign raises TypeError.", "quantifier": "every sequence of random choices", "why_tests_cant": "random", "anchors": ["curver/kernel/mappingclassgroup.py:MappingClassGroup.random_word"]}
{"id": "C51", "title": "A flip computes the intersection number with the new diagonal", "statement": "For every lamination (curves, arcs, arcs parallel to the flipped edge, terminal normal arcs), the weight a flip assigns to the new diagonal is the number of arcs crossing it (or minus the number of arcs parallel to it), for any system of disjoint arcs in the square with the given weights on its sides and on the old diagonal; and consistent weights always come from such a system of arcs.", "quantifier": "every system of pairwise non-crossing arcs of the 16 kinds in a quadrilateral with arbitrary multiplicities, every consistent lamination and every flippable edge", "why_tests_cant": "the formula has nine branches over five unbounded weights; tests sample points and can miss whole cells", "anchors": ["curver/kernel/moves.py: EdgeFlip.apply_lamination, MultiEdgeFlip.apply_lamination"]}
{"id": "C52", "title": "A Dehn twist about a short curve can always be made", "statement": "Twist(c, p) succeeds for every non-peripheral short curve c and every p != 0 (and is refused for p == 0): the number of flips prescribed by c.weight() - c.dual_weight(edge) can all be performed, and the triangulation so obtained is isometric to the original one by an isometry fixing the edge c.parallel(); the resulting encoding is a mapping class from the triangulation of c to itself.", "quantifier": "every valid triangulation, every non-peripheral short curve on it, every integer power", "why_tests_cant": "the number of flips is unbounded; the code says 'Theorem: The right number of flips ... Proof: TODO'", "anchors": ["curver/kernel/twist.py:Twist.__init__", "curver/kernel/curve.py:Curve.parallel", "curver/kernel/lamination.py:IntegralLamination.is_short"]}
{"id": "C53", "title": "Accelerated twists are correct", "statement": "Applying Twist(c, p) to a lamination without arcs returns exactly what applying p times the sequence of flips and the isometry (or its inverse -p times) returns, for the same class; the fast route (steps computed from the slope, then adding multiples of c) never differs from the slow one.", "quantifier": "every short curve, every power of any sign and size, every lamination with no arcs (integral or rational weights)", "why_tests_cant": "the fast route divides by intersection numbers and jumps by unbounded multiples; its validity near slope zero depends on every case of the geometry", "anchors": ["curver/kernel/twist.py:Twist.apply_lamination, Twist.flip_mapping", "curver/kernel/curve.py:Curve.slope"]}
{"id": "C54", "title": "Laws of Dehn twists", "statement": "A twist fixes its curve and every (arc-free) lamination with zero intersection number with it; it preserves intersection numbers with the curve; twists about the same curve compose by adding powers and ~twist undoes the twist; twisting in the direction of the slope adds |p| * intersection copies of the curve; p twists add p to the slope unless this passes through zero.", "quantifier": "every short curve, all powers, every lamination with no arcs", "why_tests_cant": "unbounded weights and powers", "anchors": ["curver/kernel/twist.py:Twist.apply_lamination, Twist.inverse", "curver/kernel/curve.py:Curve.slope, Curve.intersection"]}
{"id": "C55", "title": "Twists on homology", "statement": "Twist(c, p) applied to a homology class gives the same class as the p-th power of its flips and isometry.", "quantifier": "every short curve, every power, every homology class", "why_tests_cant": "the number of flips and the coefficients are unbounded and the code uses a closed formula instead of the flips", "anchors": ["curver/kernel/twist.py:Twist.apply_homology"]}
{"id": "C56", "title": "Half twists can always be built", "statement": "arc.parallel() returns exactly for arcs along an edge. For such an arc, has_distinct_endpoints() tells whether the edge joins two different vertices; if so HalfTwist(arc, 1) and HalfTwist(arc, -1) are constructed without error: both flip loops stop, every flip is allowed, the closing isometry exists and is unique; the result is a mapping class of the same triangulation, flip_mapping() is what the move performs, and ~ swaps the two. Power 0 is refused. Larger powers perform that power of the half twist provided the boundary twist of the arc is the square of the half twist. shorten() leaves such an arc alone and intersection with it is the weight of the edge. conjugate_by(c) is c, then h, then ~c.", "quantifier": "every valid triangulation, every edge with distinct endpoints, every power", "why_tests_cant": "the number of flips depends on the triangulation; the source has 'TODO: 4) Prove this always works' and only a bounded check (genus <= 20)", "anchors": ["curver/kernel/twist.py:HalfTwist.__init__, HalfTwist.inverse, HalfTwist.flip_mapping, HalfTwist.package", "curver/kernel/arc.py:Arc.parallel, MultiArc.has_distinct_endpoints, MultiArc.vertices", "curver/kernel/encoding.py:MappingClass.conjugate_by"]}
{"id": "C57", "title": "Laws of half twists", "statement": "A half twist and its inverse fix their arc, fix every lamination without arcs that has intersection number zero with the arc, exchange the two vertices at the ends of the arc and fix every other vertex.", "quantifier": "every valid triangulation, every edge with distinct endpoints, every arc-free lamination disjoint from it (any weights)", "why_tests_cant": "unbounded weights, valences and triangulations", "anchors": ["curver/kernel/twist.py:HalfTwist.apply_lamination", "curver/kernel/encoding.py:Encoding.vertex_map"]}
{"id": "C58", "title": "shorten returns a short lamination and the mapping to it", "statement": "s, h = L.shorten(drop): h is a mapping from the triangulation of L to that of s with h(L) == s; s is a sum of loops around vertices, arcs along edges and curves round edges, all distinct, with positive multiplicities, and s.is_short() is True; h.inverse()(s) == L. Weights that do not fit together in some triangle are refused.", "quantifier": "every triangulation, every integral lamination (with arcs, curves, peripheral parts, several components), every drop, every outcome of the floating point comparisons, every depth of the recursion, whenever a result is returned", "why_tests_cant": "the number of flips, twists and recursive calls is unbounded and depends on the weights", "anchors": ["curver/kernel/lamination.py:IntegralLamination.shorten, parallel_components, is_short, trace_curve", "curver/kernel/curve.py:MultiCurve.encode_twist, Curve.slope"]}
{"id": "C59", "title": "shorten leaves the edges alone that the lamination does not cross", "statement": "If L(e) <= 0 then the mapping h returned by L.shorten() takes the arc along e to the arc along the edge with the same label, keeps the weight of every lamination on e, and s(e) == L(e).", "quantifier": "every lamination and every edge it does not cross", "why_tests_cant": "the recursion of shorten through arc systems and twists is unbounded; the invariant is only visible by an induction over it", "anchors": ["curver/kernel/lamination.py:IntegralLamination.shorten"]}
{"id": "C60", "title": "Dehn twists about arbitrary curves", "statement": "c.encode_twist(power), for a multicurve c of any weights, is a mapping class of the triangulation of c that fixes the arcs along edges that c does not cross. If c is a curve then encode_twist(p) acts as the p-th power of one bijection of laminations, encode_twist(-p) undoes encode_twist(p), c is fixed, and so is every arc-free lamination L with c.intersection(L) == 0.", "quantifier": "every triangulation, every curve, every power, every lamination over any ordered ring with halving", "why_tests_cant": "weights, powers and the length of the conjugator are unbounded", "anchors": ["curver/kernel/curve.py:MultiCurve.encode_twist", "curver/kernel/lamination.py:IntegralLamination.components, intersection", "curver/kernel/twist.py:Twist"]}
{"id": "C61", "title": "trace_curve returns curves", "statement": "L.trace_curve(edge, intersection, max_length) returns, if anything, a curve without arcs on the same triangulation which does not cross the edges that L does not cross.", "quantifier": "every lamination, edge, starting point and length", "why_tests_cant": "the length of the trace is unbounded", "anchors": ["curver/kernel/lamination.py:Lamination.trace_curve"]}
{"id": "C62", "title": "Mappings commute with multiples", "statement": "h(n * L) == n * h(L) for every mapping h and n >= 0, also for real multiples; the empty lamination goes to the empty one.", "quantifier": "every encoding, lamination and multiple", "why_tests_cant": "unbounded sequences of moves and weights", "anchors": ["curver/kernel/encoding.py:Encoding.__call__", "curver/kernel/lamination.py:Lamination.__mul__", "curver/kernel/triangulation.py:Triangulation.empty_lamination"]}
{"id": "C63", "title": "Weights are intersection numbers with edges", "statement": "The arc along the edge e is short and edge_arc(e).intersection(L) == max(L(e), 0). (Defect: intersection is not symmetric when the first lamination has peripheral components: a proved example with i(a, c) = 1 and i(c, a) = 3.)", "quantifier": "every triangulation, edge and lamination", "why_tests_cant": "quantifies over all laminations and triangulations", "anchors": ["curver/kernel/lamination.py:IntegralLamination.intersection", "curver/kernel/triangulation.py:Triangulation.edge_arc"]}
{"id": "C64", "title": "Mappings preserve disjoint unions", "statement": "If the strands of L are those of X together with those of Y, then h(X) and h(Y) are computed without an error and the strands of h(L) are those of h(X) together with those of h(Y); in particular h(X + Y) == h(X) + h(Y) for disjoint X and Y.", "quantifier": "every encoding and every pair of disjoint laminations with integer weights, of any size, closed or not", "why_tests_cant": "h is piecewise linear, it is additive only on disjoint laminations, and there are unboundedly many moves and weights", "anchors": ["curver/kernel/encoding.py:Encoding.__call__", "curver/kernel/lamination.py:Lamination.__add__", "curver/kernel/moves.py:EdgeFlip.apply_lamination"]}
{"id": "C65", "title": "The decomposition into connected laminations is unique and natural", "statement": "A lamination is in at most one way a disjoint union of connected laminations, up to order, and h takes the connected parts of L to those of h(L); L is connected iff h(L) is.", "quantifier": "every lamination with integer weights and every encoding", "why_tests_cant": "quantifies over all decompositions and all mappings", "anchors": ["curver/kernel/encoding.py:Encoding.__call__", "curver/kernel/lamination.py:IntegralLamination.components"]}
{"id": "C66", "title": "components() is the decomposition", "statement": "Whenever L.components() returns, L is the disjoint union of the listed connected laminations taken with their multiplicities, which are positive; no component is listed twice; every connected part of L is listed; each is a Curve or an Arc according to whether it is closed; and the weights of L are the sums of theirs.", "quantifier": "every lamination with integer weights, every speed heuristic and bound on loops and recursion", "why_tests_cant": "depends on unboundedly many rounds of shortening, conjugation and peeling", "anchors": ["curver/kernel/lamination.py:IntegralLamination.components", "curver/kernel/lamination.py:IntegralLamination.parallel_components", "curver/kernel/lamination.py:IntegralLamination.peripheral_components", "curver/kernel/lamination.py:IntegralLamination.shorten"]}
{"id": "C67", "title": "components() is natural", "statement": "h(L).components() == {h(c): m for c, m in L.components().items()} for every mapping h, and the result depends only on the lamination and not on how the object was made or how it was shortened.", "quantifier": "every encoding and lamination with integer weights", "why_tests_cant": "two independent runs of an unbounded algorithm on unrelated inputs have to agree", "anchors": ["curver/kernel/lamination.py:IntegralLamination.components", "curver/kernel/encoding.py:Encoding.__call__"]}
{"id": "C68", "title": "The class of a lamination describes it", "statement": "shorten() and promote() find the class that describes the lamination: Curve/Arc iff connected and closed/with ends, MultiCurve/MultiArc iff it consists of several of these, IntegralLamination iff it is empty or has both. T(weights), sums, disjoint_sum of disjoint laminations and images under mappings have the right class, and exactly one class is right.", "quantifier": "every lamination with integer weights, every speed heuristic and bound on loops and recursion", "why_tests_cant": "the class is computed by an unbounded shortening and has to agree with a topological property", "anchors": ["curver/kernel/lamination.py:Lamination.promote", "curver/kernel/lamination.py:IntegralLamination.shorten", "curver/kernel/triangulation.py:Triangulation.lamination", "curver/kernel/triangulation.py:Triangulation.disjoint_sum"]}
{"id": "C69", "title": "num_components counts and is invariant", "statement": "num_components() is the number of connected laminations in the decomposition, adds up over disjoint unions, and h(L).num_components() == L.num_components().", "quantifier": "every lamination with integer weights and every encoding", "why_tests_cant": "topological_invariant decorator promises it for all mapping classes", "anchors": ["curver/kernel/lamination.py:IntegralLamination.num_components"]}
{"id": "C70", "title": "no_common_component", "statement": "a.no_common_component(b) iff no connected lamination is a part of both; it is symmetric and does not change under mappings.", "quantifier": "every pair of laminations with integer weights and every encoding", "why_tests_cant": "quantifies over all laminations and mappings", "anchors": ["curver/kernel/lamination.py:IntegralLamination.no_common_component"]}
{"id": "C71", "title": "multiarc and multicurve separate arcs and curves", "statement": "L is the disjoint union of L.multiarc() and L.multicurve(), all parts of the former have ends, all parts of the latter are closed, and both have the right class.", "quantifier": "every lamination with integer weights", "why_tests_cant": "quantifies over all laminations", "anchors": ["curver/kernel/lamination.py:IntegralLamination.multiarc", "curver/kernel/lamination.py:IntegralLamination.multicurve"]}
{"id": "C72", "title": "skeleton, peek_component, sublaminations", "statement": "skeleton() consists of one copy of each component, is idempotent and commutes with mappings; peek_component() is a component or raises StopIteration iff L is empty; sublaminations() lists exactly the unions of non-empty sets of components (defect: with repetitions).", "quantifier": "every lamination with integer weights and every encoding", "why_tests_cant": "quantifies over all laminations and mappings", "anchors": ["curver/kernel/lamination.py:IntegralLamination.skeleton", "curver/kernel/lamination.py:IntegralLamination.peek_component", "curver/kernel/lamination.py:IntegralLamination.sublaminations"]}
{"id": "C73", "title": "shorten returns", "statement": "L.shorten(drop=0) returns for every lamination with integer weights (iff the weights are consistent), and the result is as promised: h(L)=s, s is short and has the right class. With any drop it returns for multiarcs that cross each edge at most four times, as all its recursive calls do. The result does not depend on the bounds on loops in the model, and promote() is never called.", "quantifier": "every triangulation and every integral lamination: all weights, any number of rounds, flips and recursive calls", "why_tests_cant": "termination of a while loop for all inputs cannot be tested", "anchors": ["curver/kernel/lamination.py:IntegralLamination.shorten"]}
{"id": "C74", "title": "components, num_components, peek_component, multiarc, multicurve, skeleton and no_common_component return", "statement": "Without acceleration they return for every integral lamination, with the results that C66, C69-C72 describe.", "quantifier": "every integral lamination of the right class", "why_tests_cant": "termination for all inputs", "anchors": ["curver/kernel/lamination.py:IntegralLamination.components", "curver/kernel/lamination.py:IntegralLamination.no_common_component", "curver/kernel/lamination.py:IntegralLamination.multiarc"]}
{"id": "C75", "title": "T(weights) and + return exactly for consistent weights", "statement": "Without acceleration T(weights) returns for exactly those lists of integers that are the weights of a lamination, and the result has these weights and the class that describes it; a + b returns iff the sums of the weights are consistent.", "quantifier": "every triangulation and every list of integers of the right length", "why_tests_cant": "quantifies over all weights, including termination", "anchors": ["curver/kernel/triangulation.py:Triangulation.lamination", "curver/kernel/lamination.py:Lamination.promote", "curver/kernel/lamination.py:Lamination.__add__"]}
{"id": "C76", "title": "Dehn twists about all curves exist and intersection numbers can be computed", "statement": "Without acceleration c.encode_twist(p) returns a mapping class for every multicurve c and every power p; for a curve c these act as the powers of one bijection, fix c and fix all laminations without arcs disjoint from c. c.intersection(L) returns for all c and L.", "quantifier": "every curve on every triangulation, every power, every lamination over every ordered ring with halves", "why_tests_cant": "quantifies over all curves, powers and laminations, including termination", "anchors": ["curver/kernel/curve.py:MultiCurve.encode_twist", "curver/kernel/lamination.py:IntegralLamination.intersection"]}
{"id": "C77", "title": "all_encodings lists exactly the short flip sequences", "statement": "T.all_encodings(n) yields the identity and every encoding made of at least one and at most n flips from T, each exactly once; all of them are legal mappings that start at T.", "quantifier": "every valid triangulation, every number of flips", "why_tests_cant": "tests see a few triangulations and numbers of flips; completeness and absence of repetitions range over all", "anchors": ["curver/kernel/triangulation.py:Triangulation.all_encodings"]}
{"id": "C78", "title": "is_triangulation decides whether a multiarc is a triangulation", "statement": "L.is_triangulation() holds iff the components of L are zeta many arcs, no two of them parallel; equivalently iff some mapping takes L to the lamination of edges of its target. It is invariant under mappings, and returns when there is no acceleration.", "quantifier": "every integral lamination on every triangulation, every mapping", "why_tests_cant": "quantifies over all laminations and mappings", "anchors": ["curver/kernel/arc.py:MultiArc.is_triangulation"]}
{"id": "C79", "title": "is_polygonalisation decides whether a lamination cuts the surface into polygons", "statement": "L.is_polygonalisation() holds iff the only lamination of closed curves (peripheral ones included) that can be drawn without crossing L is the empty one. It is invariant under mappings, holds for triangulations, and returns when there is no acceleration.", "quantifier": "every integral lamination on every triangulation, every mapping, every multicurve", "why_tests_cant": "quantifies over all laminations and over all curves disjoint from them", "anchors": ["curver/kernel/lamination.py:IntegralLamination.is_polygonalisation", "curver/kernel/triangulation.py:Triangulation.dual_tree"]}
{"id": "C80", "title": "boundary of a multiarc is the boundary of its neighbourhood", "statement": "If every component of L is an arc, B = L.boundary() consists of closed curves only, on the same triangulation; B can be drawn without crossing L, and every closed curve that does not cross L does not cross B. After some mapping that makes L run along edges, an edge that cannot be moved into the neighbourhood of L (together with discs) meets B exactly once near each of its ends lying on L, and the others do not meet B. The call returns when there is no acceleration; its own loops always end.", "quantifier": "every multiarc on every triangulation, every closed multicurve disjoint from it", "why_tests_cant": "quantifies over all multiarcs and all curves disjoint from them", "anchors": ["curver/kernel/arc.py:MultiArc.boundary", "curver/kernel/lamination.py:IntegralLamination.shorten"]}
{"id": "C81", "title": "is_filling says whether a lamination meets every essential curve", "statement": "On a connected surface, for an integral lamination L whose class is right, L.is_filling() is True exactly when every closed curve (or multicurve) that can be drawn without crossing L just goes round vertices; for multicurves this needs that the surface is not the sphere with three punctures. The answer is the same for the image of L under every mapping, and without acceleration the call returns. L.boundary() of an arbitrary integral lamination consists of closed curves that cross neither L nor any closed curve disjoint from L.", "quantifier": "every integral lamination on every connected triangulation, every closed multicurve, every mapping", "why_tests_cant": "the definition of filling quantifies over all closed curves of the surface, of which there are infinitely many", "anchors": ["curver/kernel/lamination.py:IntegralLamination.is_filling", "curver/kernel/lamination.py:IntegralLamination.boundary", "curver/kernel/curve.py:MultiCurve.is_filling", "curver/kernel/arc.py:MultiArc.boundary"]}
{"id": "C82", "title": "vertices and has_distinct_endpoints of multiarcs", "statement": "L.vertices() returns, each once, exactly the vertices at which some strand of L ends: those whose link cannot be drawn disjoint from L. The arc along an edge ends at the two ends of the edge, an arc at one or two vertices, a closed lamination nowhere, a disjoint union where one of its parts does; mappings carry the end vertices to the end vertices of the image. L.has_distinct_endpoints() is True exactly when every component runs between two different vertices and no two components (with multiplicity) have an end in common; it is a topological invariant and returns when there is no acceleration.", "quantifier": "every integral lamination on every triangulation, every mapping", "why_tests_cant": "quantifies over all multiarcs and all mappings; the number of components is computed by shortening", "anchors": ["curver/kernel/arc.py:MultiArc.vertices", "curver/kernel/arc.py:MultiArc.has_distinct_endpoints"]}
{"id": "C83", "title": "Dehn twists about multicurves fix what is disjoint from them", "statement": "For a multicurve c of any weights, components and multiplicities, c.encode_twist(power) fixes c, each component of c, every closed lamination that can be drawn disjoint from c, and every vertex. Without acceleration the call returns.", "quantifier": "every multicurve on every triangulation, every power, every closed lamination disjoint from it", "why_tests_cant": "quantifies over all multicurves, powers and disjoint laminations", "anchors": ["curver/kernel/curve.py:MultiCurve.encode_twist", "curver/kernel/twist.py:Twist"]}
{"id": "C84", "title": "half twists about multiarcs", "statement": "L.encode_halftwist(power) raises ValueError if two ends of components of L lie at the same vertex. Otherwise it is a mapping class of the triangulation of L which fixes L, each component of L and every closed lamination that can be drawn disjoint from L; odd powers exchange the two ends of each component, even powers fix them, and the other vertices are fixed. Without acceleration the call returns.", "quantifier": "every multiarc (of any weights and number of components), every power, every disjoint closed lamination", "why_tests_cant": "quantifies over all multiarcs and all powers; large powers use Dehn twists about the boundary of a neighbourhood", "anchors": ["curver/kernel/arc.py:MultiArc.encode_halftwist", "curver/kernel/twist.py:HalfTwist"]}
{"id": "C85", "title": "intersection number zero means disjoint", "statement": "c.intersection(M) is never negative, and is 0 exactly when c and M can be drawn in the surface without crossing, for every integral lamination c and every M consisting of closed curves; also for every M with arcs when no component of c is peripheral. Hence a.intersection(b) == 0 iff b.intersection(a) == 0 for closed a and b, c.intersection(c) == 0, and mappings do not change whether the intersection number of two multicurves is zero.", "quantifier": "every pair of integral laminations on every triangulation, of any weights, with arcs, curves, multiplicities", "why_tests_cant": "the right hand side quantifies over all ways to draw the two laminations, and the property over all laminations", "anchors": ["curver/kernel/lamination.py:IntegralLamination.intersection", "curver/kernel/lamination.py:IntegralLamination.shorten"]}
{"id": "C86", "title": "pairwise disjoint laminations have a disjoint sum", "statement": "Laminations of which every two are disjoint can all be drawn together; triangulation.disjoint_sum of a dictionary of such laminations with multiplicities >= 0 returns their disjoint union, each taken as often as its multiplicity, with the right class.", "quantifier": "every number of laminations, every multiplicities", "why_tests_cant": "quantifies over all families of laminations of any size", "anchors": ["curver/kernel/triangulation.py:Triangulation.disjoint_sum"]}
{"id": "C87", "title": "intersection numbers add up over components", "statement": "If L is the disjoint union of N and M then c.intersection(L) = c.intersection(N) + c.intersection(M); so c.intersection(L) is the sum over the components of L, with multiplicity.", "quantifier": "every integral lamination c and every L, with arcs or curves, and every way to write it as a disjoint union", "why_tests_cant": "quantifies over all laminations and all decompositions", "anchors": ["curver/kernel/lamination.py:IntegralLamination.intersection"]}
{"id": "C88", "title": "the surface that crush leads to", "statement": "For a closed curve c whose crush() returns, the crush starts at c's triangulation and ends at a valid triangulation with the same number of edges; if c is essential it has two more vertices, and if c is peripheral crush() is the identity. Along a short curve the crush can always be constructed.", "quantifier": "every triangulation, every closed curve, every choice made by shorten", "why_tests_cant": "quantifies over all curves of any complexity on all surfaces", "anchors": ["curver/kernel/curve.py:Curve.crush", "curver/kernel/create.py:crush", "curver/kernel/crush.py:Crush.__init__", "curver/kernel/crush.py:Lift.__init__"]}
{"id": "C89", "title": "lifting through a crush", "statement": "f = c.crush() is invertible; lift = f.inverse() applied to closed curves of the crushed surface returns closed curves of the original surface that are disjoint from c. For closed curves L disjoint from c, lift(f(L)) is L without its copies of c.", "quantifier": "every essential curve c, every lamination of closed curves of any weights", "why_tests_cant": "quantifies over all laminations, and disjointness over all drawings", "anchors": ["curver/kernel/crush.py:Lift.apply_lamination", "curver/kernel/crush.py:Crush.apply_lamination", "curver/kernel/curve.py:Curve.crush"]}
{"id": "C90", "title": "crushing what is disjoint from the curve", "statement": "Every lamination that is disjoint from c, arcs included, can be crushed: the sanity checks pass and the result is a lamination of the crushed surface, without arcs if there were none. Two different peripheral curves of the crushed surface lift to c, and for closed curves N of the crushed surface f(lift(N)) is N without its copies of these two. An arc that is disjoint from c can be crushed but lifting its image raises AssertionError (a defect).", "quantifier": "every essential curve c, every lamination disjoint from it, every lamination of the crushed surface", "why_tests_cant": "quantifies over all laminations of any size", "anchors": ["curver/kernel/crush.py:Crush.apply_lamination", "curver/kernel/crush.py:Lift.apply_lamination"]}
{"id": "C91", "title": "is_separating means that one cannot get across", "statement": "For an essential curve c, c.is_separating() is True exactly if every closed walk along edges of the triangulation crosses c an even number of times; equivalently if the vertices can be divided into two sides such that exactly the edges between the sides cross c an odd number of times. It answers whenever c.crush() does, and mappings do not change the answer. For a peripheral curve it is always False although that curve does cut off its vertex (a defect against the docstring).", "quantifier": "every triangulation, connected or not, every closed curve of any weights, every closed walk, every mapping", "why_tests_cant": "quantifies over all curves and over all closed walks", "anchors": ["curver/kernel/curve.py:MultiCurve.is_separating", "curver/kernel/curve.py:Curve.crush"]}
{"id": "C92", "title": "crushes and lifts respect disjoint unions, disjointness and single curves", "statement": "For an essential curve c and f = c.crush(): if a lamination that does not cross c is the disjoint union of X and Y then its image is the disjoint union of f(X) and f(Y), and laminations that cross neither c nor each other have disjoint images; the same holds for lifts of closed curves. A closed curve that is disjoint from c and different from it is mapped to a single closed curve, essential if it was essential, that lifts back to it; every closed curve of the crushed surface lifts to a single closed curve.", "quantifier": "every essential curve c, all laminations disjoint from it with any splitting into parts, all laminations of closed curves of the crushed surface", "why_tests_cant": "quantifies over all laminations and all ways of splitting them", "anchors": ["curver/kernel/crush.py:Crush.apply_lamination", "curver/kernel/crush.py:Lift.apply_lamination", "curver/kernel/curve.py:Curve.crush"]}
{"id": "C93", "title": "MultiCurve.crush crushes along every essential component", "statement": "For a multicurve c, f = c.crush() starts at its triangulation and leads to a triangulation with as many edges and with exactly two more vertices for each essential component of c. Everything that does not cross the essential components, arcs included, can be crushed, respecting disjoint unions and disjointness; the essential components themselves are mapped to nothing. Its inverse lifts closed curves to closed curves that do not cross c, and lifting after crushing gives back everything except the copies of essential components of c; crushing after lifting gives back everything except for curves that lift to essential components.", "quantifier": "every multicurve with any number of components of any multiplicity, peripheral or not, on any surface, every lamination disjoint from it", "why_tests_cant": "quantifies over all multicurves; the loop crushes images of later components under earlier crushes", "anchors": ["curver/kernel/curve.py:MultiCurve.crush", "curver/kernel/encoding.py:Encoding.__mul__", "curver/kernel/encoding.py:Encoding.inverse"]}
{"id": "C94", "title": "explore_ball is a ball in the flip graph", "statement": "Two triangulations, seen as multiarcs, are neighbours in the flip graph when they differ in one arc; flips give exactly these neighbours, and mappings preserve this. all_encodings(n) reaches exactly the triangulations at most n steps away. For a filling L, L.explore_ball(r) is exactly the ball of radius r around one triangulation Y that does not depend on r and that contains all arcs of L; no triangulation is listed twice; all of them are triangulations of the surface of L; larger radii contain the smaller ones. It returns for filling laminations and raises AssertionError otherwise.", "quantifier": "every lamination, every radius, every flip and mapping", "why_tests_cant": "the statement that nothing in the ball is missed ranges over all triangulations of the surface and all paths of flips", "anchors": ["curver/kernel/arc.py:MultiArc.explore_ball", "curver/kernel/triangulation.py:Triangulation.all_encodings"]}
{"id": "C95", "title": "vertex_cycles are vertex cycles, and there always is one", "statement": "Everything that L.vertex_cycles() yields for a multicurve L is a curve that only uses the normal arcs of L and passes through each edge at most twice; it yields every such curve that passes through each edge at most once; it comes to an end; and L.vertex_cycle() returns such a curve whenever L is not empty. (It does not yield all those that pass through each edge at most twice, which is what its documentation says.)", "quantifier": "every multicurve on every triangulation, every listing of simple cycles, every curve on the same surface", "why_tests_cant": "existence of a vertex cycle for every multicurve, and completeness over all curves", "anchors": ["curver/kernel/curve.py:MultiCurve.vertex_cycles", "curver/kernel/curve.py:MultiCurve.vertex_cycle", "curver/kernel/triangulation.py:Triangulation.lamination_from_cut_sequence"]}
{"id": "C96", "title": "simplify returns an equal mapping", "statement": "Whatever h.simplify() returns is equal to h: it has the same ends, takes the edges of the source triangulation to the same multiarc and acts in the same way on homology, so replacing a mapping by its simplification never changes the answer of ==. Two isometries between the same triangulations that act in the same way on homology are the same, so there is never more than one candidate for the closer; the only way in which simplify can fail is that no isometry is equal to h followed by the flips that comb its image, in which case it raises ValueError.", "quantifier": "every mapping built from flips, multiflips and isometries, between every pair of triangulations, connected or not; acceleration turned off for termination", "why_tests_cant": "uniqueness of the closer is a statement about all isometries of all triangulations (a discrete Torelli theorem), and equality must hold for every mapping", "anchors": ["curver/kernel/encoding.py:Mapping.simplify", "curver/kernel/triangulation.py:Triangulation.isometries_to", "curver/kernel/triangulation.py:Triangulation.edge_homologies"]}
{"id": "C97", "title": "boundary_union and fills_with", "statement": "Whatever c.boundary_union(other) returns consists of closed curves on the same surface that do not cross the multicurve c, for every integral lamination other, even one that crosses c; if other does not cross c then every closed curve that avoids both c and other avoids the result too. For closed curves that do not cross c the result is two copies of what is left of other when its components that are essential components of c are removed (so c itself is forgotten, unlike the documentation says). c.fills_with(other) is False whenever other misses a component of c, and otherwise, if the crushed surface is connected, it is True exactly when other becomes a filling lamination there.", "quantifier": "every multicurve, every integral lamination on the same surface, every closed curve that avoids both", "why_tests_cant": "a statement about all closed curves that avoid two laminations, and about every pair of laminations, crossing or not", "anchors": ["curver/kernel/curve.py:MultiCurve.boundary_union", "curver/kernel/curve.py:MultiCurve.fills_with", "curver/kernel/curve.py:MultiCurve.crush"]}
{"id": "C98", "title": "tight_paths", "statement": "Every path that CurveGraph.tight_paths(a, b, length) returns has length + 1 entries, starts with a and ends with a multicurve equal to b. There is a path of length 0 exactly when a and b are equal, and one of length 1 exactly when they do not cross and have no component in common. A path of length 2 goes through the multicurve m = a.boundary_union(b), which does not cross a; it is returned exactly when m is not peripheral and has no component in common with a or with b, so never when a and b do not cross. From length 3 on tight_paths never returns a path: if a fills with b it raises an error, since one of the candidates for the second entry is the empty lamination, and otherwise the set is empty.", "quantifier": "every pair of multicurves, every length, every bound on loops; every promote() that returns the right classes", "why_tests_cant": "a statement about all multicurves, all lengths, and the members of balls in the flip graph that are too large to list", "anchors": ["curver/kernel/curvegraph.py:CurveGraph.tight_paths", "curver/kernel/curve.py:MultiCurve.boundary_union", "curver/kernel/arc.py:MultiArc.explore_ball", "curver/kernel/lamination.py:IntegralLamination.sublaminations"]}
{"id": "C99", "title": "quasiconvex, tight geodesics and distance", "statement": "CurveGraph.quasiconvex(a, b) returns curves on the surface, among them a and b. all_tight_geodesic_multicurves(a, b) returns multicurves on the surface, among them a and b: each is one of the curves of quasiconvex(a, b), or the essential boundary_union of two of them. tight_geodesic(a, b) returns closed curves that start at a and end at b, each of which but the last does not cross the one before it, as many as there are multicurves on some walk from a to b in the complex of multicurves; geodesic(a, b) picks a component of each, and starts at a and ends at b. When distance(a, b) returns d, there is a walk of length d from a to b in the complex of multicurves (adjacent multicurves do not cross and have no component in common), and none is shorter among those through multicurves of all_tight_geodesic_multicurves(a, b); d is 0 exactly when a and b are equal and 1 exactly when they are different and do not cross. If a fills with b, none of these methods but quasiconvex returns.", "quantifier": "every pair of curves, every surface, every bound on loops; every promote() that returns the right classes, every implementation of simple_cycles and shortest_path that does what networkx documents", "why_tests_cant": "a statement about all pairs of curves and all walks between them in an infinite graph", "anchors": ["curver/kernel/curvegraph.py:CurveGraph.quasiconvex", "curver/kernel/curvegraph.py:CurveGraph.all_tight_geodesic_multicurves", "curver/kernel/curvegraph.py:CurveGraph.tight_geodesic", "curver/kernel/curvegraph.py:CurveGraph.geodesic", "curver/kernel/curvegraph.py:CurveGraph.distance"]}
{"id": "C100", "title": "relative_twisting", "statement": "a.relative_twisting(b, c), for a curve a and integral laminations b and c on its surface, raises ValueError when a goes round a vertex, or does not cross b, or does not cross c; in all other cases it returns (without acceleration). The denominator is positive. The result is the quotient by 2 i(a,b) i(a,c) of the difference of the intersection numbers with c of b twisted 2 i(b,c) times to the left and to the right about a; these two twisted laminations are taken back to b by the opposite twists and still cross a. If b and c are disjoint the result is zero, in particular for b == c.", "quantifier": "every curve, every pair of integral laminations on the same surface, with or without arcs", "why_tests_cant": "a statement about all pairs of laminations of any weights, and about whether a computation with unbounded loops stops", "anchors": ["curver/kernel/curve.py:Curve.relative_twisting", "curver/kernel/curve.py:MultiCurve.encode_twist", "curver/kernel/lamination.py:IntegralLamination.intersection"]}
{"id": "C101", "title": "flip_mapping", "statement": "h.flip_mapping() returns a mapping of the same class as h, between the same triangulations, that consists of EdgeFlips and Isometries only and does what h does: every lamination, whatever its weights, has the same image, and so does every homology class. The only exception is a mapping with a multiflip of no edges (T.encode([set()]) is legal and is the identity): flip_mapping raises AssertionError on it.", "quantifier": "every mapping built of flips, multiflips (in every order in which Python may iterate over the set) and isometries; every lamination with integer or real weights; every homology class", "why_tests_cant": "The mapping may have any length and its multiflips any number of edges; equality of mappings is a statement about all laminations, of which tests see a few. The tests never make a multiflip of no edges.", "anchors": ["curver/kernel/encoding.py:Mapping.flip_mapping", "curver/kernel/moves.py:MultiEdgeFlip.flip_mapping", "curver/kernel/moves.py:EdgeFlip.flip_mapping", "curver/kernel/moves.py:Isometry.flip_mapping"]}
