import Verif.Copula.ModelLog

/-!
Specification for C90: relative accuracy, elementwise.
-/

namespace Pacal.Copula

/-- `y` is `v` up to a relative error of `2 * 10 ** (-16)` -/
def Close (y v : ℝ) : Prop := |y - v| ≤ 2e-16 * |v|

/-- applied to an array, elementwise -/
def Arg.Forall₂ (r : ℝ → ℝ → Prop) : Arg → Arg → Prop
  | .scalar x, .scalar y => r x y
  | .array xs, .array ys => List.Forall₂ r xs ys
  | _, _ => False

end Pacal.Copula
