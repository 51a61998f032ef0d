import Verif.Sample.Model

/-! The meaning of expressions, and where their samples are right -/

namespace Pacal.Sample
open Real

/-- the function -/
noncomputable def Op1.fn : Op1 → ℝ → ℝ
  | .exp, x => Real.exp x
  | .log, x => Real.log x
  | .atan, x => arctan x
  | .tanh, x => Real.tanh x
  | .sigmoid, x => 1 / (1 + Real.exp (-x))
  | .tan, x => Real.tan x
  | .inv, x => x⁻¹
  | .abs, x => |x|
  | .square, x => x ^ 2
  | .sin, x => Real.sin x
  | .cos, x => Real.cos x
  | .shifted shift scale, x => scale * x + shift

/-- the operation -/
noncomputable def Op2.fn : Op2 → ℝ → ℝ → ℝ
  | .sum, x, y => x + y
  | .sub, x, y => x - y
  | .mul, x, y => x * y
  | .div, x, y => x / y
  | .min, x, y => Min.min x y
  | .max, x, y => Max.max x y

/-- the value of an expression for values of the variables -/
noncomputable def Expr.value (v : ℕ → ℝ) : Expr → ℝ
  | .var i => v i
  | .one o e => o.fn (e.value v)
  | .two o e e' => o.fn (e.value v) (e'.value v)

/-- arguments for which the function is defined and which the library looks at: one period for sine and cosine -/
def Op1.Defined : Op1 → ℝ → Prop
  | .log, x => 0 < x
  | .inv, x => x ≠ 0
  | .tan, x => Real.cos x ≠ 0
  | .sin, x => -π / 2 ≤ x ∧ x ≤ 3 * π / 2
  | .cos, x => 0 ≤ x ∧ x ≤ 2 * π
  | _, _ => True

/-- no division by 0, no logarithm of numbers that are not positive, and sines and cosines within one period -/
def Expr.Defined (v : ℕ → ℝ) : Expr → Prop
  | .var _ => True
  | .one o e => e.Defined v ∧ o.Defined (e.value v)
  | .two .div e e' => e.Defined v ∧ e'.Defined v ∧ e'.value v ≠ 0
  | .two _ e e' => e.Defined v ∧ e'.Defined v

end Pacal.Sample
