import Mathlib.MeasureTheory.Measure.Real
import Mathlib.MeasureTheory.Constructions.BorelSpace.Real

/-! Specification of quantiles. -/

namespace Pacal
open MeasureTheory Set

/-- `x` is a quantile of `μ` for the level `y`: `P(X < x) ≤ y ≤ P(X ≤ x)`, where `x` may be infinite -/
def IsQuantile (μ : Measure ℝ) (y : ℝ) (x : EReal) : Prop :=
  μ.real {t : ℝ | (t : EReal) < x} ≤ y ∧ y ≤ μ.real {t : ℝ | (t : EReal) ≤ x}

end Pacal
