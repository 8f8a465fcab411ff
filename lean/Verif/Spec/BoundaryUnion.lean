import Verif.Spec.MultiCrush

/-!
# Specification: `promote()` finds the right class
-/

namespace Curver
namespace Lam

/-- When `P` returns, it returns the class that describes the lamination. -/
def TellsClass (P : Lam Int → Py LamClass) : Prop := ∀ (L : Lam Int) (k : LamClass), L.Consistent → P L = .ok k → L.Describes k

end Lam
end Curver
