import Verif.Distr.Nonneg
import Verif.Law.Spec

/-! What C56 is about. -/

namespace Pacal

/-- the density is positive inside its pieces and the atoms have positive probability -/
def PF.Positive (l : PF ℝ) : Prop :=
  ∀ s ∈ l, match s with
    | .dirac _ m => 0 < m
    | s => ∀ x : ℝ, s.lo < .fin x → .fin x < s.hi → 0 < s.val x

/-- what the operations that need a positive base answer -/
def Var.Answers (d : Var ℝ) (a : Except PyErr Unit) : Prop :=
  d.log = a ∧ d.sqrt = a ∧ d.powVar = a ∧ ∀ x : ℝ, x ≠ 0 → x ≠ 1 → x ≠ -1 → x ≠ 2 → d.pow x = a

end Pacal
