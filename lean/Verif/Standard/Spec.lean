import Mathlib.MeasureTheory.Measure.Lebesgue.Basic
import Mathlib.MeasureTheory.Measure.WithDensity
import Mathlib.Analysis.SpecialFunctions.Gamma.Basic
import Mathlib.Probability.Distributions.Beta

/-!
Independent specification: textbook densities of the distributions which are not defined in Mathlib.
-/

namespace Pacal.Standard.Textbook
open Real MeasureTheory

/-- the measure with density `f` -/
noncomputable def law (f : ℝ → ℝ) : Measure ℝ := volume.withDensity fun x => ENNReal.ofReal (f x)

/-- trapezoid: 0 at `a`, rising to 1 at `b`, constant up to `c`, falling to 0 at `d` -/
noncomputable def trapezoid (a b c d x : ℝ) : ℝ :=
  if x < a then 0 else if x < b then (x - a) / (b - a) else if x < c then 1 else if x < d then (d - x) / (d - c) else 0

/-- Lévy with location `m` and scale `c` -/
noncomputable def levy (c m x : ℝ) : ℝ :=
  if m < x then √(c / (2 * π)) * exp (-c / (2 * (x - m))) / (x - m) ^ (3 / 2 : ℝ) else 0

/-- Laplace with location `m` and scale `b` -/
noncomputable def laplace (b m x : ℝ) : ℝ := 1 / (2 * b) * exp (-(|x - m| / b))

/-- Student's t with `v` degrees of freedom -/
noncomputable def studentT (v x : ℝ) : ℝ :=
  Gamma ((v + 1) / 2) / (√(v * π) * Gamma (v / 2)) * (1 + x ^ 2 / v) ^ (-((v + 1) / 2))

/-- Wigner's semicircle of radius `R` -/
noncomputable def semicircle (R x : ℝ) : ℝ := if |x| ≤ R then 2 / (π * R ^ 2) * √(R ^ 2 - x ^ 2) else 0

/-- F with `d₁`, `d₂` degrees of freedom -/
noncomputable def fisher (d₁ d₂ x : ℝ) : ℝ :=
  if 0 < x then √((d₁ * x) ^ d₁ * d₂ ^ d₂ / (d₁ * x + d₂) ^ (d₁ + d₂)) / (x * ProbabilityTheory.beta (d₁ / 2) (d₂ / 2))
  else 0

/-- Weibull with shape `k` and scale `l` -/
noncomputable def weibull (k l x : ℝ) : ℝ :=
  if 0 < x then k / l * (x / l) ^ (k - 1) * exp (-(x / l) ^ k) else 0

/-- Gumbel with location `m` and scale `b` -/
noncomputable def gumbel (m b x : ℝ) : ℝ := 1 / b * exp (-((x - m) / b + exp (-((x - m) / b))))

/-- Fréchet with shape `a`, scale `s`, minimum `m` -/
noncomputable def frechet (a s m x : ℝ) : ℝ :=
  if m < x then a / s * ((x - m) / s) ^ (-1 - a) * exp (-((x - m) / s) ^ (-a)) else 0

/-- log-logistic with shape `k` and scale `s` -/
noncomputable def logLogistic (k s x : ℝ) : ℝ :=
  if 0 < x then k / s * (x / s) ^ (k - 1) / (1 + (x / s) ^ k) ^ 2 else 0

/-- the bump function on `(-1, 1)` -/
noncomputable def bump (t : ℝ) : ℝ := if |t| < 1 then exp (-1 / (1 - t ^ 2)) else 0

end Pacal.Standard.Textbook
