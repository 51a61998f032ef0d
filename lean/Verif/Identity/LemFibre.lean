import Verif.Identity.LemTwo
import Mathlib.Analysis.SpecialFunctions.ImproperIntegrals

/-!
Lemmas for `Verif.Identity.PropsTable`: laws of two variables, computed by an integral over one of them.
-/

namespace Pacal.Identity
open MeasureTheory ProbabilityTheory Standard Set Real

/-- sums: the first variable is fixed -/
theorem fibreAdd : Conv.Fibre (fun t y => t + y) (fun x t => x - t) (fun _ => 1) where
  meas := by fun_prop
  umeas := by fun_prop
  wmeas := by fun_prop
  wnn _ := zero_le_one
  map t _ H hH := by
    simp only [ENNReal.ofReal_one, one_mul]
    exact lintegral_add_left_eq_self (μ := volume) H t
  inv t _ y := by ring
  qmp x _ := (Measure.measurePreserving_sub_left volume x).quasiMeasurePreserving

/-- differences: the first variable is fixed -/
theorem fibreSub : Conv.Fibre (fun t y => t - y) (fun x t => t - x) (fun _ => 1) where
  meas := by fun_prop
  umeas := by fun_prop
  wmeas := by fun_prop
  wnn _ := zero_le_one
  map t _ H hH := by
    simp only [ENNReal.ofReal_one, one_mul]
    exact lintegral_sub_left_eq_self (μ := volume) H t
  inv t _ y := by ring
  qmp x _ := (measurePreserving_sub_right volume x).quasiMeasurePreserving

theorem gamma_integrable {k r : ℝ} (hk : 0 < k) (hr : 0 < r) : Integrable (gammaPDFReal k r) := by
  have : IsProbabilityMeasure (Textbook.law (gammaPDFReal k r)) := isProbabilityMeasure_gammaMeasure hk hr
  exact Sampler.integrable_of_law (measurable_gammaPDFReal _ _) (gammaPDFReal_nonneg hk hr)

theorem gamma_nn {k r : ℝ} (hk : 0 < k) (hr : 0 < r) : ∀ᵐ x, 0 ≤ gammaPDFReal k r x :=
  Filter.Eventually.of_forall (gammaPDFReal_nonneg hk hr)

theorem integral_pos_part {F : ℝ → ℝ} (hF : ∀ x < 0, F x = 0) : ∫ x, F x = ∫ x in Ioi 0, F x := by
  rw [← integral_indicator measurableSet_Ioi]
  refine integral_congr_ae ?_
  filter_upwards [Sampler.ae_ne' 0] with x hx
  rcases lt_or_gt_of_ne hx with h | h
  · rw [hF x h, indicator_of_notMem (show x ∉ Ioi 0 from not_lt.2 h.le)]
  · rw [indicator_of_mem (mem_Ioi.2 h)]

theorem div_as_fibre {f g : ℝ → ℝ} (hf : Integrable f) (hg : Integrable g) (hf0 : ∀ᵐ x, 0 ≤ f x) (hg0 : ∀ᵐ x, 0 ≤ g x)
    [IsProbabilityMeasure (Textbook.law f)] [IsProbabilityMeasure (Textbook.law g)] :
    opLaw (· / ·) (Textbook.law f) (Textbook.law g) = Textbook.law fun x => ∫ t, g t * (|t| * f (x * t)) := by
  rw [opLaw_swap meas_div]
  exact (Conv.fibre_dens Conv.fibreDiv hg hf hg0 hf0).2.2.2

/-- the density of the quotient of two gamma variables -/
theorem gamma_div {p q r₁ r₂ : ℝ} (hp : 0 < p) (hq : 0 < q) (h₁ : 0 < r₁) (h₂ : 0 < r₂) :
    opLaw (· / ·) (gammaMeasure p r₁) (gammaMeasure q r₂) = Textbook.law fun x =>
      if 0 < x then Gamma (p + q) / (Gamma p * Gamma q) * r₁ ^ p * r₂ ^ q * x ^ (p - 1) * (r₂ + r₁ * x) ^ (-(p + q)) else 0 := by
  have i1 : IsProbabilityMeasure (Textbook.law (gammaPDFReal p r₁)) := isProbabilityMeasure_gammaMeasure hp h₁
  have i2 : IsProbabilityMeasure (Textbook.law (gammaPDFReal q r₂)) := isProbabilityMeasure_gammaMeasure hq h₂
  have h := div_as_fibre (gamma_integrable hp h₁) (gamma_integrable hq h₂) (gamma_nn hp h₁) (gamma_nn hq h₂)
  refine Eq.trans h ?_
  refine Sampler.law_congr ?_
  filter_upwards [Sampler.ae_ne' 0] with x hx
  rw [integral_pos_part fun t ht => by rw [gamma_neg ht, zero_mul]]
  rcases lt_or_gt_of_ne hx with hn | h0
  · rw [if_neg hn.le.not_gt]
    refine (setIntegral_congr_fun measurableSet_Ioi (g := fun _ => 0) fun t ht => ?_).trans (by simp)
    simp only
    rw [gamma_neg (mul_neg_of_neg_of_pos hn ht), mul_zero, mul_zero]
  · rw [if_pos h0]
    have hb : 0 < r₂ + r₁ * x := by positivity
    have e : EqOn (fun t => gammaPDFReal q r₂ t * (|t| * gammaPDFReal p r₁ (x * t)))
        (fun t => r₂ ^ q / Gamma q * (r₁ ^ p / Gamma p) * x ^ (p - 1) * (t ^ (p + q - 1) * exp (-(r₂ + r₁ * x) * t ^ (1 : ℝ)))) (Ioi 0) := by
      intro t ht
      have ht0 : 0 < t := ht
      simp only
      rw [gamma_pdf ht0, gamma_pdf (mul_pos h0 ht0), abs_of_pos ht0, mul_rpow h0.le ht0.le, rpow_one,
        show p + q - 1 = (q - 1) + 1 + (p - 1) by ring, rpow_add ht0, rpow_add ht0, rpow_one,
        show -(r₂ + r₁ * x) * t = -(r₂ * t) + -(r₁ * (x * t)) by ring, exp_add]
      ring
    rw [setIntegral_congr_fun measurableSet_Ioi e, integral_const_mul,
      integral_rpow_mul_exp_neg_mul_rpow one_pos (by linarith) hb, div_one, div_one, mul_one, sub_add_cancel]
    have := (Gamma_pos_of_pos hp).ne'
    have := (Gamma_pos_of_pos hq).ne'
    field_simp

/-- the F distribution -/
theorem fisher_div {a b : ℝ} (ha : 0 < a) (hb : 0 < b) :
    opLaw (· / ·) ((kindLaw (.chiSquare a)).map (stepFn (.shiftScale 0 (1 / a)))) ((kindLaw (.chiSquare b)).map (stepFn (.shiftScale 0 (1 / b)))) =
      kindLaw (.fDistr a b) := by
  rw [kindLaw, kindLaw, gamma_scale (by norm_num) (by positivity), gamma_scale (by norm_num) (by positivity),
    show (1 : ℝ) / 2 / (1 / a) = a / 2 by field_simp, show (1 : ℝ) / 2 / (1 / b) = b / 2 by field_simp,
    gamma_div (half_pos ha) (half_pos hb) (half_pos ha) (half_pos hb), kindLaw]
  congr 1
  ext x
  rw [Textbook.fisher]
  by_cases h0 : 0 < x
  · rw [if_pos h0, if_pos h0]
    have hax : 0 < a * x := by positivity
    have hq : 0 < a * x + b := by positivity
    have e : √((a * x) ^ a * b ^ b / (a * x + b) ^ (a + b)) = (a * x) ^ (a / 2) * b ^ (b / 2) / (a * x + b) ^ (a / 2 + b / 2) := by
      rw [sqrt_div (by positivity), sqrt_mul (by positivity), sqrt_eq_rpow, sqrt_eq_rpow, sqrt_eq_rpow, ← rpow_mul hax.le, ← rpow_mul hb.le,
        ← rpow_mul hq.le]
      congr 2 <;> congr 1 <;> ring
    rw [e, ProbabilityTheory.beta, show b / 2 + a / 2 * x = (a * x + b) / 2 by ring, rpow_neg (by positivity), div_rpow hq.le two_pos.le,
      div_rpow ha.le two_pos.le, div_rpow hb.le two_pos.le, rpow_sub h0, rpow_one, mul_rpow ha.le h0.le, rpow_add two_pos]
    have := (Gamma_pos_of_pos (half_pos ha)).ne'
    have := (Gamma_pos_of_pos (half_pos hb)).ne'
    have := (Gamma_pos_of_pos (add_pos (half_pos ha) (half_pos hb))).ne'
    have := (rpow_pos_of_pos two_pos (a / 2)).ne'
    have := (rpow_pos_of_pos two_pos (b / 2)).ne'
    have := (rpow_pos_of_pos hq (a / 2 + b / 2)).ne'
    field_simp
  · rw [if_neg h0, if_neg h0]

theorem exp_div {r₁ r₂ : ℝ} (h₁ : 0 < r₁) (h₂ : 0 < r₂) :
    opLaw (· / ·) (kindLaw (.exponential r₁)) (kindLaw (.exponential r₂)) = kindLaw (.logLogistic 1 (r₂ / r₁)) := by
  rw [kindLaw, kindLaw, expMeasure, expMeasure, gamma_div one_pos one_pos h₁ h₂, kindLaw]
  congr 1
  ext x
  rw [Textbook.logLogistic]
  by_cases h0 : 0 < x
  · rw [if_pos h0, if_pos h0, sub_self, rpow_zero, rpow_zero, rpow_one, rpow_one, rpow_one, Gamma_one, one_add_one_eq_two, Gamma_two,
      rpow_neg (by positivity), rpow_two]
    have : 0 < r₂ + r₁ * x := by positivity
    rw [show 1 + x / (r₂ / r₁) = (r₂ + r₁ * x) / r₂ by field_simp]
    field_simp
  · rw [if_neg h0, if_neg h0]

/-- the t distribution -/
theorem student_div {v : ℝ} (hv : 0 < v) :
    opLaw (· / ·) (kindLaw (.normal 0 1)) (((kindLaw (.chiSquare v)).map (stepFn (.shiftScale 0 (1 / v)))).map (stepFn (.pow (1 / 2)))) =
      kindLaw (.studentT v) := by
  obtain ⟨h, hh⟩ : ∃ h : ℝ → ℝ, h = fun s => if 0 < s then 2 * s * gammaPDFReal (v / 2) (v / 2) (s ^ 2) else 0 := ⟨_, rfl⟩
  have hv2 := half_pos hv
  have i0 : IsProbabilityMeasure (gammaMeasure (v / 2) (v / 2)) := isProbabilityMeasure_gammaMeasure hv2 hv2
  have eh : (gammaMeasure (v / 2) (v / 2)).map (stepFn (.pow (1 / 2))) = Textbook.law h := by
    refine pow_map (f := gammaPDFReal (v / 2) (v / 2)) (by norm_num) (fun x hx => gamma_neg hx)
      (fun x hx => by rw [hh]; exact if_neg hx.le.not_gt) fun x hx => ?_
    have hp := rpow_pos_of_pos hx (1 / 2)
    rw [hh]
    simp only
    rw [if_pos hp, ← rpow_natCast (x ^ (1 / 2 : ℝ)) 2, ← rpow_mul hx.le]
    norm_num
    rw [rpow_neg hx.le]
    norm_num at hp
    have := hp.ne'
    field_simp
  have hm : Measurable h := by
    rw [hh]
    exact Measurable.ite measurableSet_Ioi (by have := measurable_gammaPDFReal (v / 2) (v / 2); fun_prop) measurable_const
  have h0 : ∀ x, 0 ≤ h x := by
    intro x
    rw [hh]
    simp only
    split_ifs with hx
    · exact mul_nonneg (by positivity) (gammaPDFReal_nonneg hv2 hv2 _)
    · exact le_rfl
  have i1 : IsProbabilityMeasure (Textbook.law h) := by rw [← eh]; exact Measure.isProbabilityMeasure_map (measurable_fn _).aemeasurable
  rw [kindLaw, kindLaw, gamma_scale (by norm_num) (by positivity), show (1 : ℝ) / 2 / (1 / v) = v / 2 by field_simp, eh,
    Sampler.gaussian_law 0 one_pos]
  have i2 : IsProbabilityMeasure (Textbook.law (gaussianPDFReal 0 ((1 : ℝ) ^ 2).toNNReal)) := by
    rw [← Sampler.gaussian_law 0 one_pos]; infer_instance
  rw [div_as_fibre (integrable_gaussianPDFReal _ _) (Sampler.integrable_of_law hm h0)
    (Filter.Eventually.of_forall (gaussianPDFReal_nonneg _ _)) (Filter.Eventually.of_forall h0), kindLaw]
  congr 1
  ext x
  have hb : 0 < (v + x ^ 2) / 2 := by positivity
  rw [integral_pos_part fun t ht => by rw [hh]; simp only; rw [if_neg ht.le.not_gt, zero_mul]]
  have e : EqOn (fun t => h t * (|t| * gaussianPDFReal 0 ((1 : ℝ) ^ 2).toNNReal (x * t)))
      (fun t => 2 * ((v / 2) ^ (v / 2) / Gamma (v / 2)) * (1 / √(2 * π)) * (t ^ v * exp (-((v + x ^ 2) / 2) * t ^ (2 : ℝ)))) (Ioi 0) := by
    intro t ht
    have ht0 : 0 < t := ht
    simp only [hh]
    rw [if_pos ht0, gamma_pdf (by positivity), Sampler.gaussianPDF_apply one_pos, abs_of_pos ht0, rpow_two,
      show -((v + x ^ 2) / 2) * t ^ 2 = -(v / 2 * t ^ 2) + -((x * t) ^ 2 / (2 * 1 ^ 2)) by ring, exp_add, ← rpow_natCast t 2,
      ← rpow_mul ht0.le, show ((2 : ℕ) : ℝ) * (v / 2 - 1) = v - 1 - 1 by push_cast; ring, rpow_sub ht0, rpow_sub ht0, rpow_one, one_mul]
    field_simp
  rw [setIntegral_congr_fun measurableSet_Ioi e, integral_const_mul,
    integral_rpow_mul_exp_neg_mul_rpow two_pos (by linarith) hb, Textbook.studentT, neg_div]
  have hg := (Gamma_pos_of_pos hv2).ne'
  have e1 : 1 + x ^ 2 / v = (v + x ^ 2) / 2 * (v / 2)⁻¹ := by field_simp
  rw [e1, mul_rpow hb.le (by positivity), inv_rpow hv2.le, ← rpow_neg hv2.le, neg_neg, show (v + 1) / 2 = v / 2 + 1 / 2 by ring,
    rpow_add hv2, ← sqrt_eq_rpow]
  have e2 : √(v * π) = √(v / 2) * √(2 * π) := by rw [← sqrt_mul hv2.le]; congr 1; ring
  rw [e2]
  have := (sqrt_pos.2 hv2).ne'
  have : √(2 * π) ≠ 0 := by positivity
  field_simp

/-- sums of gamma variables with the same scale -/
theorem gamma_add {p q r : ℝ} (hp : 0 < p) (hq : 0 < q) (hr : 0 < r) :
    opLaw (· + ·) (gammaMeasure p r) (gammaMeasure q r) = gammaMeasure (p + q) r := by
  have i1 : IsProbabilityMeasure (Textbook.law (gammaPDFReal p r)) := isProbabilityMeasure_gammaMeasure hp hr
  have i2 : IsProbabilityMeasure (Textbook.law (gammaPDFReal q r)) := isProbabilityMeasure_gammaMeasure hq hr
  have i3 : IsProbabilityMeasure (gammaMeasure (p + q) r) := isProbabilityMeasure_gammaMeasure (add_pos hp hq) hr
  have h := (Conv.fibre_dens fibreAdd (gamma_integrable hp hr) (gamma_integrable hq hr) (gamma_nn hp hr) (gamma_nn hq hr)).2.2.2
  have i4 : IsProbabilityMeasure (opLaw (· + ·) (Textbook.law (gammaPDFReal p r)) (Textbook.law (gammaPDFReal q r))) := opLaw_prob meas_add _ _
  obtain ⟨B, hB⟩ : ∃ B, B = ∫ s in Ioo (0 : ℝ) 1, s ^ (p - 1) * (1 - s) ^ (q - 1) := ⟨_, rfl⟩
  have hB0 : 0 ≤ B := by
    rw [hB]
    exact setIntegral_nonneg measurableSet_Ioo fun s hs => mul_nonneg (rpow_nonneg hs.1.le _) (rpow_nonneg (by linarith [hs.2]) _)
  have hGp := Gamma_pos_of_pos hp
  have hGq := Gamma_pos_of_pos hq
  have hGpq := Gamma_pos_of_pos (add_pos hp hq)
  obtain ⟨K, hK⟩ : ∃ K, K = Gamma (p + q) / (Gamma p * Gamma q) * B := ⟨_, rfl⟩
  have hK0 : 0 ≤ K := by rw [hK]; positivity
  have e : ∀ x, x ≠ 0 → Conv.fibreK (fun x t => x - t) (fun _ => 1) (gammaPDFReal p r) (gammaPDFReal q r) x = K * gammaPDFReal (p + q) r x := by
    intro x hx
    rw [Conv.fibreK]
    rcases lt_or_gt_of_ne hx with hn | h0
    · rw [gamma_neg hn, mul_zero]
      refine (integral_congr_ae (Filter.Eventually.of_forall fun t => ?_)).trans (integral_zero ℝ ℝ)
      rcases lt_or_ge t 0 with ht | ht
      · rw [gamma_neg ht, zero_mul]
      · rw [gamma_neg (k := q) (show x - t < 0 by linarith), mul_zero, mul_zero]
    · have e1 : ∫ t, gammaPDFReal p r t * (1 * gammaPDFReal q r (x - t)) =
          ∫ t in Ioo 0 x, r ^ p / Gamma p * (r ^ q / Gamma q) * exp (-(r * x)) * (t ^ (p - 1) * (x - t) ^ (q - 1)) := by
        rw [← integral_indicator measurableSet_Ioo]
        refine integral_congr_ae ?_
        filter_upwards [Sampler.ae_ne' 0, Sampler.ae_ne' x] with t ht0 htx
        by_cases ht : t ∈ Ioo 0 x
        · rw [indicator_of_mem ht, gamma_pdf ht.1, gamma_pdf (sub_pos.2 ht.2), show -(r * x) = -(r * t) + -(r * (x - t)) by ring, exp_add]
          ring
        · rw [indicator_of_notMem ht]
          rcases lt_or_ge t 0 with h1 | h1
          · rw [gamma_neg h1, zero_mul]
          · have : x - t < 0 := by
              by_contra hc
              exact ht ⟨lt_of_le_of_ne h1 ht0.symm, lt_of_le_of_ne (by linarith) htx⟩
            rw [gamma_neg (k := q) this, mul_zero, mul_zero]
      rw [e1, integral_const_mul]
      have e2 : ∫ t in Ioo 0 x, t ^ (p - 1) * (x - t) ^ (q - 1) = x ^ (p + q - 1) * B := by
        have hs := integral_image_eq_integral_abs_deriv_smul (s := Ioo (0 : ℝ) 1) (f := fun s => x * s) (f' := fun _ => x) measurableSet_Ioo
          (fun s _ => by simpa using ((hasDerivAt_id s).const_mul x).hasDerivWithinAt) (fun a _ b _ hab => mul_left_cancel₀ hx hab)
          (fun t => t ^ (p - 1) * (x - t) ^ (q - 1))
        have him : (fun s => x * s) '' Ioo (0 : ℝ) 1 = Ioo 0 x := by
          rw [image_mul_left_Ioo h0, mul_zero, mul_one]
        rw [him] at hs
        rw [hs, hB, ← integral_const_mul]
        refine setIntegral_congr_fun measurableSet_Ioo fun s hs => ?_
        simp only [smul_eq_mul]
        rw [abs_of_pos h0, mul_rpow h0.le hs.1.le, show x - x * s = x * (1 - s) by ring, mul_rpow h0.le (by linarith [hs.2]),
          show p + q - 1 = 1 + (p - 1) + (q - 1) by ring, rpow_add h0, rpow_add h0, rpow_one]
        ring
      rw [e2, gamma_pdf h0, hK, rpow_add hr]
      field_simp
  have h2 : opLaw (· + ·) (Textbook.law (gammaPDFReal p r)) (Textbook.law (gammaPDFReal q r)) = ENNReal.ofReal K • gammaMeasure (p + q) r := by
    refine Eq.trans h ?_
    rw [gammaMeasure, ← withDensity_smul' _ _ ENNReal.ofReal_ne_top]
    refine withDensity_congr_ae ?_
    filter_upwards [Sampler.ae_ne' 0] with x hx
    rw [e x hx, ENNReal.ofReal_mul hK0]
    rfl
  have h3 : ENNReal.ofReal K = 1 := by
    have := measure_univ (μ := opLaw (· + ·) (Textbook.law (gammaPDFReal p r)) (Textbook.law (gammaPDFReal q r)))
    rw [h2, Measure.smul_apply, measure_univ, smul_eq_mul, mul_one] at this
    exact this
  rw [h3, one_smul] at h2
  exact h2

/-- the difference of two exponential variables with the same rate -/
theorem exp_sub' {r : ℝ} (hr : 0 < r) :
    opLaw (· - ·) (kindLaw (.exponential r)) (kindLaw (.exponential r)) = kindLaw (.laplace (1 / r) 0) := by
  rw [exp_law, kindLaw]
  have h := (Conv.fibre_dens fibreSub (gamma_integrable one_pos hr) (gamma_integrable one_pos hr) (gamma_nn one_pos hr) (gamma_nn one_pos hr)).2.2.2
  refine Eq.trans h ?_
  refine congrArg Textbook.law (funext fun x => ?_)
  rw [Conv.fibreK, Textbook.laplace, sub_zero]
  have e : ∫ t, gammaPDFReal 1 r t * (1 * gammaPDFReal 1 r (t - x)) = ∫ t in Ioi (max x 0), r ^ 2 * exp (r * x) * exp (-(2 * r) * t) := by
    rw [← integral_indicator measurableSet_Ioi]
    refine integral_congr_ae ?_
    filter_upwards [Sampler.ae_ne' 0, Sampler.ae_ne' x] with t ht0 htx
    by_cases ht : t ∈ Ioi (max x 0)
    · obtain ⟨h1, h2⟩ := max_lt_iff.1 (mem_Ioi.1 ht)
      rw [indicator_of_mem ht, exp_pdf h2, exp_pdf (sub_pos.2 h1), mul_assoc (r ^ 2), ← exp_add,
        show r * x + -(2 * r) * t = -(r * t) + -(r * (t - x)) by ring, exp_add]
      ring
    · rw [indicator_of_notMem ht]
      rw [mem_Ioi, max_lt_iff, not_and_or] at ht
      rcases ht with h1 | h1
      · rw [gamma_neg (x := t - x) (sub_neg.2 (lt_of_le_of_ne (not_lt.1 h1) htx)), mul_zero, mul_zero]
      · rw [gamma_neg (x := t) (lt_of_le_of_ne (not_lt.1 h1) ht0), zero_mul]
  rw [e, integral_const_mul, integral_exp_mul_Ioi (by linarith), neg_div_neg_eq]
  have e2 : -(|x| / (1 / r)) = r * x + -(2 * r) * max x 0 := by
    rcases le_total x 0 with h | h
    · rw [max_eq_right h, abs_of_nonpos h]; field_simp; ring
    · rw [max_eq_left h, abs_of_nonneg h]; field_simp; ring
  rw [e2, exp_add]
  field_simp

theorem uniform_integrable (a b c : ℝ) : Integrable ((Icc a b).indicator fun _ => c) := by
  rw [integrable_indicator_iff measurableSet_Icc]
  exact integrableOn_const (by rw [Real.volume_Icc]; exact ENNReal.ofReal_ne_top)

/-- the sum of two uniform variables -/
theorem uniform_add {a b c d : ℝ} (h₁ : a < b) (h₂ : c < d) (hw : b - a ≤ d - c) :
    opLaw (· + ·) (kindLaw (.uniform a b)) (kindLaw (.uniform c d)) = kindLaw (.trapezoidal (a + c) (b + c) (a + d) (b + d)) := by
  have p₁ := sub_pos.2 h₁
  have p₂ := sub_pos.2 h₂
  rw [uniform_law h₁, uniform_law h₂, kindLaw]
  have nn : ∀ {a b : ℝ}, a < b → ∀ᵐ x, 0 ≤ (Icc a b).indicator (fun _ => 1 / (b - a)) x := fun h =>
    Filter.Eventually.of_forall fun x => indicator_nonneg (fun _ _ => one_div_nonneg.2 (sub_pos.2 h).le) x
  have h := (Conv.fibre_dens fibreAdd (uniform_integrable a b (1 / (b - a))) (uniform_integrable c d (1 / (d - c))) (nn h₁) (nn h₂)).2.2.2
  refine Eq.trans h ?_
  refine congrArg Textbook.law (funext fun x => ?_)
  have e : Conv.fibreK (fun x t => x - t) (fun _ => 1) ((Icc a b).indicator fun _ => 1 / (b - a)) ((Icc c d).indicator fun _ => 1 / (d - c)) x =
      max (min b (x - c) - max a (x - d)) 0 * (1 / (b - a) * (1 / (d - c))) := by
    have e1 : ∀ t, (Icc a b).indicator (fun _ => 1 / (b - a)) t * (1 * (Icc c d).indicator (fun _ => 1 / (d - c)) (x - t)) =
        (Icc (max a (x - d)) (min b (x - c))).indicator (fun _ => 1 / (b - a) * (1 / (d - c))) t := by
      intro t
      by_cases ht : t ∈ Icc (max a (x - d)) (min b (x - c))
      · obtain ⟨h3, h4⟩ := ht
        rw [max_le_iff] at h3
        rw [le_min_iff] at h4
        rw [indicator_of_mem (show t ∈ Icc (max a (x - d)) (min b (x - c)) from ⟨max_le h3.1 h3.2, le_min h4.1 h4.2⟩), indicator_of_mem (show t ∈ Icc a b from ⟨h3.1, h4.1⟩),
          indicator_of_mem (show x - t ∈ Icc c d from ⟨by linarith, by linarith⟩), one_mul]
      · rw [indicator_of_notMem ht]
        by_cases h3 : t ∈ Icc a b
        · have h4 : x - t ∉ Icc c d := fun h4 => ht ⟨max_le h3.1 (by linarith [h4.2]), le_min h3.2 (by linarith [h4.1])⟩
          rw [indicator_of_notMem h4, mul_zero, mul_zero]
        · rw [indicator_of_notMem h3, zero_mul]
    rw [Conv.fibreK]
    simp only [e1]
    rw [integral_indicator_const _ measurableSet_Icc, Measure.real, Real.volume_Icc, smul_eq_mul, ENNReal.toReal_ofReal']
  rw [e, Textbook.trapezoid, show b + d + (a + d) - (b + c + (a + c)) = 2 * (d - c) by ring]
  split_ifs with h1 h2 h3 h4
  · rw [min_eq_right (by linarith), max_eq_left (b := x - d) (by linarith), max_eq_right (by linarith)]; ring
  · rw [min_eq_right (by linarith), max_eq_left (b := x - d) (by linarith), max_eq_left (by linarith), add_sub_add_right_eq_sub]
    field_simp; ring
  · rw [min_eq_left (by linarith), max_eq_left (b := x - d) (by linarith), max_eq_left (by linarith)]
    field_simp
  · rw [min_eq_left (by linarith), max_eq_right (b := x - d) (by linarith), max_eq_left (by linarith), add_sub_add_right_eq_sub]
    field_simp; ring
  · rw [min_eq_left (by linarith), max_eq_right (b := x - d) (by linarith), max_eq_right (by linarith)]; ring

end Pacal.Identity
