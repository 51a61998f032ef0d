import Verif.Gamma.Model
import Mathlib.Analysis.SpecialFunctions.Gamma.Basic

/-!
What the log-gamma routine is to compute.
-/

namespace Pacal.Gamma

/-- the poles of the gamma function: zero and the negative integers -/
def Pole (x : ℝ) : Prop := ∃ m : ℕ, x = -m

/-- the logarithm of the absolute value of the gamma function -/
noncomputable def logAbsGamma (x : ℝ) : ℝ := Real.log |Real.Gamma x|

/-- the call ends with a finite number that is `y` up to `ε` -/
def Returns (r : Option Num) (y ε : ℝ) : Prop := ∃ v, r = some (.fin v) ∧ |v - y| ≤ ε

/-- the numerical parts are right: up to `ε` the two approximations, up to `δ` the constant -/
structure Approx.Good (A : Approx) (ε δ : ℝ) : Prop where
  mid : ∀ u, 2 < u → u < 3 → |A.mid (u - 2) - logAbsGamma u| ≤ ε
  big : ∀ x, 13 ≤ x → x ≤ maxlgm → |A.big x - logAbsGamma x| ≤ ε
  logpi : |A.logpi - Real.log Real.pi| ≤ δ

end Pacal.Gamma
