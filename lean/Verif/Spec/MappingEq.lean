import Verif.Model.MappingEq
import Verif.Spec.Encoding

/-!
# Specification vocabulary for equality and order of mappings
-/

namespace Curver
namespace Enc

/-- The mappings have the same ends, send the edges of the source triangulation (as a multiarc) to the same multiarc, and send
every homology class to the same class. -/
structure Agree (h k : Enc) : Prop where
  source : h.source = k.source
  target : h.target = k.target
  edges : h.applyLam h.source.asLamination = k.applyLam h.source.asLamination
  homology : ∀ x y z : Hom, x.WellFormed → h.applyHom x = .ok y → k.applyHom x = .ok z → y.Homologous z

/-- The mapping fixes the edges of the triangulation (as a multiarc) and every homology class. -/
structure Trivial (h : Enc) : Prop where
  edges : h.applyLam h.source.asLamination = .ok h.source.asLamination
  homology : ∀ x y : Hom, x.WellFormed → h.applyHom x = .ok y → y.Homologous x

end Enc
end Curver
