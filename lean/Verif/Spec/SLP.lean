import Verif.Model.SLP

/-!
# What a straight line program stands for

`p` lists `l` when iterating over `p` stops and produces `l` (whatever bound on the number of rounds
is used, once it is large enough).  `p` is constructed when it was returned by the constructor.
-/

namespace Curver.SLP
variable {α : Type}

/-- `list(p) == l`, in particular iteration terminates. -/
def Lists (p : SLP α) (l : List α) : Prop := ∃ N, ∀ rounds ≥ N, p.toList rounds = .ok l

/-- `p` is a result of the constructor `StraightLineProgram(...)`. -/
def Constructed (p : SLP α) : Prop := ∃ g, ofGraph g = .ok p

end Curver.SLP
