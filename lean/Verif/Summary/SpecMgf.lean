import Verif.Summary.ModelMgf

/-!
Specification for C93.  The moment generating function itself is Mathlib's `ProbabilityTheory.mgf`.
-/

namespace Pacal.Summary

/-- `t` lies between the lowest and the highest end of a piece of `l` -/
def InRange (l : PF ℝ) (t : ℝ) : Prop := (∃ s ∈ l, s.lo ≤ .fin t) ∧ ∃ s ∈ l, .fin t ≤ s.hi

end Pacal.Summary
