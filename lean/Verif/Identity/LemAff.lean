import Verif.Identity.Spec
import Verif.Sampler.LemB

/-!
Lemmas for `Verif.Identity.PropsTable`: affine functions of standard distributions.
-/

namespace Pacal.Identity
open MeasureTheory ProbabilityTheory Standard Set Real

theorem aff {f : ℝ → ℝ} (a : ℝ) {b : ℝ} (hb : 0 < b) :
    (Textbook.law f).map (stepFn (.shiftScale a b)) = Textbook.law fun x => 1 / b * f ((x - a) / b) := by
  rw [← Sampler.map_affine a hb]
  congr 1
  ext x
  simp only [stepFn]; ring

theorem aff_neg {f : ℝ → ℝ} (a : ℝ) {b : ℝ} (hb : b < 0) :
    (Textbook.law f).map (stepFn (.shiftScale a b)) = Textbook.law fun x => 1 / (-b) * f ((x - a) / b) := by
  have hm : Measurable (stepFn (.shiftScale a b)) := by unfold stepFn; fun_prop
  refine Sampler.map_density (U := univ) (V := univ) MeasurableSet.univ MeasurableSet.univ hm
    (g' := fun _ => b) (fun x _ => ?_) ?_ ?_ (by simp) (by simp) ?_
  · simpa [stepFn] using ((hasDerivAt_id x).mul_const b).add_const a
  · intro x _ y _ h
    simpa [stepFn, hb.ne] using h
  · refine eq_univ_of_forall fun y => ⟨(y - a) / b, trivial, ?_⟩
    simp only [stepFn]
    have := hb.ne
    field_simp; ring
  · intro x _
    have hb' := hb.ne
    rw [abs_of_neg hb, stepFn, show (x * b + a - a) / b = x by field_simp; ring]
    field_simp

/-! ### densities -/

theorem uniform_law {a b : ℝ} (h : a < b) : kindLaw (.uniform a b) = Textbook.law ((Icc a b).indicator fun _ => 1 / (b - a)) := by
  rw [kindLaw, ProbabilityTheory.cond, Real.volume_Icc, Textbook.law]
  have e : (fun x => ENNReal.ofReal ((Icc a b).indicator (fun _ => 1 / (b - a)) x)) =
      (ENNReal.ofReal (b - a))⁻¹ • (Icc a b).indicator fun _ => (1 : ENNReal) := by
    ext x
    by_cases hx : x ∈ Icc a b
    · simp only [indicator_of_mem hx, Pi.smul_apply, smul_eq_mul, mul_one]
      rw [one_div, ENNReal.ofReal_inv_of_pos (sub_pos.2 h)]
    · simp [indicator_of_notMem hx]
  have hne : (ENNReal.ofReal (b - a))⁻¹ ≠ ⊤ := by
    rw [Ne, ENNReal.inv_eq_top, ENNReal.ofReal_eq_zero, not_le]; exact sub_pos.2 h
  rw [e, withDensity_smul' _ _ hne, withDensity_indicator measurableSet_Icc]
  simp

theorem cauchy_pdf {g : ℝ} (hg : 0 < g) (c : ℝ) : kindLaw (.cauchy g c) = Textbook.law fun x => π⁻¹ * g * ((x - c) ^ 2 + g ^ 2)⁻¹ := by
  have h : g.toNNReal ≠ 0 := by rw [Ne, Real.toNNReal_eq_zero, not_le]; exact hg
  rw [kindLaw, cauchyMeasure_of_scale_ne_zero _ h, Textbook.law]
  congr 1
  ext x
  rw [cauchyPDF, cauchyPDFReal, Real.coe_toNNReal _ hg.le]

/-! ### the affine functions -/

theorem normal_aff {mu sigma : ℝ} (a b : ℝ) :
    (kindLaw (.normal mu sigma)).map (stepFn (.shiftScale a b)) = kindLaw (.normal (mu * b + a) (|b| * sigma)) := by
  have e : stepFn (.shiftScale a b) = (fun x => x + a) ∘ fun x => b * x := by ext x; simp [stepFn, mul_comm]
  rw [kindLaw, kindLaw, e, ← Measure.map_map (by fun_prop) (by fun_prop), gaussianReal_map_const_mul, gaussianReal_map_add_const]
  congr 1
  · ring
  · apply NNReal.eq
    simp only [NNReal.coe_mul, NNReal.coe_mk]
    rw [Real.coe_toNNReal _ (sq_nonneg _), Real.coe_toNNReal _ (sq_nonneg _), mul_pow, sq_abs]

theorem uniform_aff {p q : ℝ} (hpq : p < q) (a : ℝ) {b : ℝ} (hb : 0 < b) :
    (kindLaw (.uniform p q)).map (stepFn (.shiftScale a b)) = kindLaw (.uniform (p * b + a) (q * b + a)) := by
  rw [uniform_law hpq, uniform_law (by nlinarith), aff a hb]
  congr 1
  ext x
  by_cases h : x ∈ Icc (p * b + a) (q * b + a)
  · rw [indicator_of_mem h, indicator_of_mem]
    · have := (sub_pos.2 hpq).ne'
      have : q * b - p * b ≠ 0 := by rw [← sub_mul]; positivity
      rw [show q * b + a - (p * b + a) = (q - p) * b by ring]
      field_simp
    · exact ⟨by rw [le_div_iff₀ hb]; linarith [h.1], by rw [div_le_iff₀ hb]; linarith [h.2]⟩
  · rw [indicator_of_notMem h, indicator_of_notMem, mul_zero]
    intro h'
    rw [mem_Icc, le_div_iff₀ hb, div_le_iff₀ hb] at h'
    exact h ⟨by linarith [h'.1], by linarith [h'.2]⟩

theorem uniform_aff_neg {p q : ℝ} (hpq : p < q) (a : ℝ) {b : ℝ} (hb : b < 0) :
    (kindLaw (.uniform p q)).map (stepFn (.shiftScale a b)) = kindLaw (.uniform (q * b + a) (p * b + a)) := by
  rw [uniform_law hpq, uniform_law (by nlinarith), aff_neg a hb]
  congr 1
  ext x
  by_cases h : x ∈ Icc (q * b + a) (p * b + a)
  · rw [indicator_of_mem h, indicator_of_mem]
    · have := (sub_pos.2 hpq).ne'
      have := hb.ne
      rw [show p * b + a - (q * b + a) = -((q - p) * b) by ring]
      field_simp
    · exact ⟨by rw [le_div_iff_of_neg hb]; linarith [h.2], by rw [div_le_iff_of_neg hb]; linarith [h.1]⟩
  · rw [indicator_of_notMem h, indicator_of_notMem, mul_zero]
    intro h'
    rw [mem_Icc, le_div_iff_of_neg hb, div_le_iff_of_neg hb] at h'
    exact h ⟨by linarith [h'.2], by linarith [h'.1]⟩

theorem cauchy_aff {g : ℝ} (hg : 0 < g) (c a : ℝ) {b : ℝ} (hb : b ≠ 0) :
    (kindLaw (.cauchy g c)).map (stepFn (.shiftScale a b)) = kindLaw (.cauchy (|b| * g) (c * b + a)) := by
  have key : ∀ x : ℝ, 1 / |b| * (π⁻¹ * g * (((x - a) / b - c) ^ 2 + g ^ 2)⁻¹) =
      π⁻¹ * (|b| * g) * ((x - (c * b + a)) ^ 2 + (|b| * g) ^ 2)⁻¹ := by
    intro x
    have h1 : ((x - a) / b - c) ^ 2 + g ^ 2 = ((x - (c * b + a)) ^ 2 + (|b| * g) ^ 2) / |b| ^ 2 := by
      rw [mul_pow, sq_abs]; field_simp; ring
    have h2 : |b| ≠ 0 := abs_ne_zero.2 hb
    rw [h1, inv_div]
    field_simp
  rw [cauchy_pdf hg, cauchy_pdf (by positivity)]
  rcases lt_or_gt_of_ne hb with h | h
  · rw [aff_neg a h]
    congr 1
    ext x
    rw [← key, abs_of_neg h]
  · rw [aff a h]
    congr 1
    ext x
    rw [← key, abs_of_pos h]

theorem gamma_scale {k r : ℝ} (hr : 0 < r) {b : ℝ} (hb : 0 < b) :
    (gammaMeasure k r).map (stepFn (.shiftScale 0 b)) = gammaMeasure k (r / b) := by
  change (Textbook.law (gammaPDFReal k r)).map _ = Textbook.law (gammaPDFReal k (r / b))
  rw [aff 0 hb]
  refine Sampler.law_congr ?_
  filter_upwards [Sampler.ae_ne' 0] with x hx
  rw [gammaPDFReal, gammaPDFReal, sub_zero]
  rcases lt_or_gt_of_ne hx with h | h
  · rw [if_neg (not_le.2 h), if_neg (not_le.2 (div_neg_of_neg_of_pos h hb)), mul_zero]
  · rw [if_pos h.le, if_pos (by positivity), div_rpow hr.le hb.le, div_rpow h.le hb.le, rpow_sub hb, rpow_one,
      show r * (x / b) = r / b * x by ring]
    have := (rpow_pos_of_pos hb k).ne'
    have := hb.ne'
    by_cases hG : Gamma k = 0
    · simp [hG]
    · field_simp

theorem laplace_aff {l : ℝ} (hl : 0 < l) (m a : ℝ) {b : ℝ} (hb : b ≠ 0) :
    (kindLaw (.laplace l m)).map (stepFn (.shiftScale a b)) = kindLaw (.laplace (|b| * l) (m * b + a)) := by
  have key : ∀ x : ℝ, 1 / |b| * Textbook.laplace l m ((x - a) / b) = Textbook.laplace (|b| * l) (m * b + a) x := by
    intro x
    have h2 : |b| ≠ 0 := abs_ne_zero.2 hb
    rw [Textbook.laplace, Textbook.laplace, show (x - a) / b - m = (x - (m * b + a)) / b by field_simp; ring, abs_div, div_div]
    field_simp
  rw [kindLaw, kindLaw]
  rcases lt_or_gt_of_ne hb with h | h
  · rw [aff_neg a h]
    congr 1
    ext x
    rw [← key, abs_of_neg h]
  · rw [aff a h]
    congr 1
    ext x
    rw [← key, abs_of_pos h]

theorem levy_aff {c : ℝ} (hc : 0 < c) (m a : ℝ) {b : ℝ} (hb : 0 < b) :
    (kindLaw (.levy c m)).map (stepFn (.shiftScale a b)) = kindLaw (.levy (b * c) (m * b + a)) := by
  rw [kindLaw, kindLaw, aff a hb]
  congr 1
  ext x
  have e : (x - a) / b - m = (x - (m * b + a)) / b := by field_simp; ring
  rw [Textbook.levy, Textbook.levy, e]
  by_cases h : m * b + a < x
  · have hp : 0 < x - (m * b + a) := sub_pos.2 h
    rw [if_pos h, if_pos (by rw [lt_div_iff₀ hb]; linarith), div_rpow hp.le hb.le,
      show -c / (2 * ((x - (m * b + a)) / b)) = -(b * c) / (2 * (x - (m * b + a))) by field_simp,
      show b * c / (2 * π) = b * (c / (2 * π)) by ring, sqrt_mul hb.le]
    have h3 : b ^ (3 / 2 : ℝ) = b * √b := by
      rw [sqrt_eq_rpow, ← rpow_one_add' hb.le (by norm_num)]; norm_num
    have := (rpow_pos_of_pos hp (3 / 2)).ne'
    rw [h3]
    have := (sqrt_pos.2 hb).ne'
    field_simp
  · rw [if_neg h, if_neg, mul_zero]
    rw [lt_div_iff₀ hb]; intro h'; exact h (by linarith)

theorem weibull_scale {k l : ℝ} (hl : 0 < l) {b : ℝ} (hb : 0 < b) :
    (kindLaw (.weibull k l)).map (stepFn (.shiftScale 0 b)) = kindLaw (.weibull k (b * l)) := by
  rw [kindLaw, kindLaw, aff 0 hb]
  congr 1
  ext x
  rw [Textbook.weibull, Textbook.weibull, sub_zero]
  by_cases h : 0 < x
  · rw [if_pos h, if_pos (by positivity), div_div]
    field_simp
  · rw [if_neg h, if_neg, mul_zero]
    rw [div_pos_iff_of_pos_right hb]; exact h

theorem frechet_aff {al s : ℝ} (hs : 0 < s) (m a : ℝ) {b : ℝ} (hb : 0 < b) :
    (kindLaw (.frechet al s m)).map (stepFn (.shiftScale a b)) = kindLaw (.frechet al (b * s) (m * b + a)) := by
  rw [kindLaw, kindLaw, aff a hb]
  congr 1
  ext x
  have e : (x - a) / b - m = (x - (m * b + a)) / b := by field_simp; ring
  rw [Textbook.frechet, Textbook.frechet, e]
  by_cases h : m * b + a < x
  · rw [if_pos h, if_pos (by rw [lt_div_iff₀ hb]; linarith), div_div]
    field_simp
  · rw [if_neg h, if_neg, mul_zero]
    rw [lt_div_iff₀ hb]; intro h'; exact h (by linarith)

theorem logLogistic_scale {k s : ℝ} (hs : 0 < s) {b : ℝ} (hb : 0 < b) :
    (kindLaw (.logLogistic k s)).map (stepFn (.shiftScale 0 b)) = kindLaw (.logLogistic k (b * s)) := by
  rw [kindLaw, kindLaw, aff 0 hb]
  congr 1
  ext x
  rw [Textbook.logLogistic, Textbook.logLogistic, sub_zero]
  by_cases h : 0 < x
  · rw [if_pos h, if_pos (by positivity), div_div]
    field_simp
  · rw [if_neg h, if_neg, mul_zero]
    rw [div_pos_iff_of_pos_right hb]; exact h

theorem pareto_scale {al xm : ℝ} (hx : 0 < xm) {b : ℝ} (hb : 0 < b) :
    (kindLaw (.pareto al xm)).map (stepFn (.shiftScale 0 b)) = kindLaw (.pareto al (b * xm)) := by
  change (Textbook.law (paretoPDFReal xm al)).map _ = Textbook.law (paretoPDFReal (b * xm) al)
  rw [aff 0 hb]
  congr 1
  ext x
  rw [paretoPDFReal, paretoPDFReal, sub_zero]
  by_cases h : b * xm ≤ x
  · have hx0 : 0 < x := (mul_pos hb hx).trans_le h
    rw [if_pos h, if_pos (by rw [le_div_iff₀ hb]; linarith), div_rpow hx0.le hb.le, mul_rpow hb.le hx.le, rpow_neg hb.le,
      rpow_add hb, rpow_one]
    have := (rpow_pos_of_pos hb al).ne'
    field_simp
  · rw [if_neg h, if_neg, mul_zero]
    rw [le_div_iff₀ hb]; intro h'; exact h (by linarith)

theorem semicircle_scale {R : ℝ} (hR : 0 < R) {b : ℝ} (hb : b ≠ 0) :
    (kindLaw (.semicircle R)).map (stepFn (.shiftScale 0 b)) = kindLaw (.semicircle (|b| * R)) := by
  have h2 : 0 < |b| := abs_pos.2 hb
  have key : ∀ x : ℝ, 1 / |b| * Textbook.semicircle R ((x - 0) / b) = Textbook.semicircle (|b| * R) x := by
    intro x
    rw [Textbook.semicircle, Textbook.semicircle, sub_zero, abs_div]
    by_cases h : |x| ≤ |b| * R
    · rw [if_pos h, if_pos (by rw [div_le_iff₀ h2]; linarith),
        show (|b| * R) ^ 2 - x ^ 2 = |b| ^ 2 * (R ^ 2 - (x / b) ^ 2) by rw [mul_pow, sq_abs]; field_simp, sqrt_mul (sq_nonneg _),
        sqrt_sq h2.le]
      field_simp
    · rw [if_neg h, if_neg, mul_zero]
      rw [div_le_iff₀ h2]; intro h'; exact h (by linarith)
  rw [kindLaw, kindLaw]
  rcases lt_or_gt_of_ne hb with h | h
  · rw [aff_neg 0 h]
    congr 1
    ext x
    rw [← key, abs_of_neg h]
  · rw [aff 0 h]
    congr 1
    ext x
    rw [← key, abs_of_pos h]

end Pacal.Identity
