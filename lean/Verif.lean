import Verif.Py
import Verif.Model.Utilities
import Verif.Model.Permutation
import Verif.Props.Utilities
import Verif.Props.Permutation
import Verif.Props.UnionFind
import Verif.Props.SLP
import Verif.Props.Memo
import Verif.Props.Triangulation
import Verif.Props.Flips
import Verif.Props.Isometry
import Verif.Props.Homology
import Verif.Props.FindIsometry
import Verif.Props.Encoding
import Verif.Props.Package
import Verif.Props.Combine
import Verif.Props.MappingEq
import Verif.Props.IsometriesTo
import Verif.Props.Topology
import Verif.Props.LamArith
import Verif.Props.DualWeights
import Verif.Props.Peripheral
import Verif.Props.VertexMap
import Verif.Props.Mcg
import Verif.Props.Finite
import Verif.Props.Parser
import Verif.Props.PL
import Verif.Props.Load
import Verif.Props.Pachner
import Verif.Props.Twist
import Verif.Props.HalfTwist
import Verif.Props.Shorten
import Verif.Props.Scale
import Verif.Props.Intersection
import Verif.Props.Union
import Verif.Props.LamComponents
import Verif.Props.LamClass
import Verif.Props.LamParts
import Verif.Props.Termination
import Verif.Props.MultiArc
import Verif.Proofs.Boundary
import Verif.Proofs.Boundary2
import Verif.Proofs.Boundary3
import Verif.Props.Boundary
import Verif.Spec.Filling
import Verif.Proofs.Filling
import Verif.Proofs.Filling2
import Verif.Proofs.Filling3
import Verif.Proofs.Filling4
import Verif.Props.Filling
import Verif.Model.MultiHalf
import Verif.Spec.Vertices
import Verif.Proofs.Vertices
import Verif.Proofs.Vertices2
import Verif.Proofs.Vertices3
import Verif.Props.Vertices
import Verif.Proofs.MultiHalf
import Verif.Proofs.TwistDisjoint
import Verif.Props.MultiTwist
import Verif.Proofs.MultiHalf2
import Verif.Props.MultiHalf
import Verif.Props.Crossing
import Verif.Props.Crush
import Verif.Proofs.Separating
import Verif.Proofs.SeparatingCrush
import Verif.Props.Separating
import Verif.Proofs.CrushUnion
import Verif.Proofs.LiftUnion
import Verif.Proofs.CrushUnionUse
import Verif.Model.MultiCrush
import Verif.Spec.MultiCrush
import Verif.Proofs.Crusher
import Verif.Proofs.CrusherComp
import Verif.Proofs.CrusherBase
import Verif.Proofs.MultiCrush
import Verif.Props.MultiCrush
import Verif.Spec.FlipGraph
import Verif.Model.ExploreBall
import Verif.Proofs.FlipGraph
import Verif.Props.ExploreBall
import Verif.Model.VertexCycles
import Verif.Spec.VertexCycles
import Verif.Proofs.VertexCycles
import Verif.Proofs.CycleWalk
import Verif.Props.VertexCycles
import Verif.Props.Simplify
import Verif.Model.BoundaryUnion
import Verif.Spec.BoundaryUnion
import Verif.Proofs.BoundaryUnion
import Verif.Props.BoundaryUnion
import Verif.Model.CurveGraph
import Verif.Proofs.BoundaryClass
import Verif.Proofs.CurveGraph
import Verif.Props.CurveGraph
import Verif.Props.Geodesic
import Verif.Model.RelativeTwisting
import Verif.Props.RelativeTwisting
import Verif.Model.FlipMapping
import Verif.Props.FlipMapping
