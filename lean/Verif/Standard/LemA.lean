import Verif.Standard.Fun
import Mathlib.Probability.Distributions.Gaussian.Real
import Mathlib.Probability.Distributions.Cauchy
import Mathlib.Probability.Distributions.Exponential
import Mathlib.Probability.Distributions.Gamma
import Mathlib.Probability.Distributions.Beta
import Mathlib.Probability.Distributions.Pareto
import Mathlib.Probability.ConditionalProbability

/-!
Lemmas for `Verif.Standard.PropsA`.
-/

namespace Pacal.Standard
open MeasureTheory ProbabilityTheory Real
open scoped NNReal

theorem gammaPdf_chain_facts {a r : ℝ} (ha : 0 < a) (hr : 0 < r) :
    (∀ x ∉ ext (.fin 0) .pinf, gammaPDFReal a r x = 0) ∧
    IsFiniteMeasure (volume.withDensity fun x => ENNReal.ofReal (gammaPDFReal a r x)) := by
  constructor
  · intro x hx
    rw [ext_half] at hx
    exact if_neg hx
  · have := isProbabilityMeasure_gammaMeasure ha hr
    exact inferInstanceAs (IsFiniteMeasure (gammaMeasure a r))

theorem gamma_formula {lg : ℝ → ℝ} (hlg : ∀ x, 0 < x → lg x = log (Gamma x)) {k theta : ℝ} (hk : 0 < k)
    (ht : 0 < theta) {x : ℝ} (hx : 0 < x) :
    exp (gammaLogPdf lg k theta x) = gammaPDFReal k (1 / theta) x := by
  rw [gammaLogPdf, gammaPDFReal, if_pos hx.le, hlg k hk]
  have hG := Gamma_pos_of_pos hk
  rw [rpow_def_of_pos hx, rpow_def_of_pos (by positivity : (0:ℝ) < 1 / theta), one_div, Real.log_inv]
  rw [show (k - 1) * log x - x / theta - (log (Gamma k) + k * log theta) =
    -log theta * k + -(log (Gamma k)) + log x * (k - 1) + -(theta⁻¹ * x) by field_simp; ring]
  rw [exp_add, exp_add, exp_add, exp_neg (log (Gamma k)), exp_log hG]
  ring

theorem ae_ne (a : ℝ) : ∀ᵐ x : ℝ, x ≠ a := by
  rw [ae_iff]
  simp

end Pacal.Standard
