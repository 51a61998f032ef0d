import Verif.Sampler.Lem
import Mathlib.MeasureTheory.Integral.IntegralEqImproper
import Mathlib.MeasureTheory.Integral.Gamma
import Mathlib.Probability.Distributions.Cauchy

/-! The samplers that combine several draws or draw on both sides. -/

namespace Pacal.Sampler
open MeasureTheory ProbabilityTheory Real Standard Set

theorem law_add {f g : ℝ → ℝ} (hf : ∀ x, 0 ≤ f x) (hg : ∀ x, 0 ≤ g x) (hm : Measurable f) :
    Textbook.law (fun x => f x + g x) = Textbook.law f + Textbook.law g := by
  rw [Textbook.law, Textbook.law, Textbook.law, ← withDensity_add_left hm.ennreal_ofReal]
  congr 1
  ext x
  rw [ENNReal.ofReal_add (hf x) (hg x), Pi.add_apply]

theorem law_congr {f g : ℝ → ℝ} (h : ∀ᵐ x, f x = g x) : Textbook.law f = Textbook.law g :=
  withDensity_congr_ae (h.mono fun x hx => by simp only [hx])

theorem gaussian_law (m : ℝ) {s : ℝ} (hs : 0 < s) :
    gaussianReal m (s ^ 2).toNNReal = Textbook.law (gaussianPDFReal m (s ^ 2).toNNReal) := by
  rw [gaussianReal_of_var_ne_zero]
  · rfl
  · rw [Ne, Real.toNNReal_eq_zero, not_le]; positivity

theorem gaussianPDF_apply {s : ℝ} (hs : 0 < s) (x : ℝ) :
    gaussianPDFReal 0 (s ^ 2).toNNReal x = 1 / (s * √(2 * π)) * exp (-(x ^ 2 / (2 * s ^ 2))) := by
  rw [gaussianPDFReal, Real.coe_toNNReal _ (sq_nonneg s), sub_zero, Real.sqrt_mul' _ (sq_nonneg _), Real.sqrt_sq hs.le,
    mul_comm (√(2 * π)), one_div, neg_div]

/-- `xmin + 1 / Z ** 2` for a normal `Z` with variance `1/c` is a Lévy variable -/
theorem levy_law {c : ℝ} (hc : 0 < c) (xmin : ℝ) :
    (gaussianReal 0 ((levySigma c) ^ 2).toNNReal).map (levyOf xmin) = Textbook.law (Textbook.levy c xmin) := by
  have hs : 0 < levySigma c := by rw [levySigma]; positivity
  have hs2 : levySigma c ^ 2 = 1 / c := by rw [levySigma, div_pow, sq_sqrt hc.le, one_pow]
  obtain ⟨φ, hφ⟩ : ∃ φ, φ = gaussianPDFReal 0 ((levySigma c) ^ 2).toNNReal := ⟨_, rfl⟩
  have hφv : ∀ x, φ x = √(c / (2 * π)) * exp (-(c * x ^ 2 / 2)) := by
    intro x
    rw [hφ, gaussianPDF_apply hs, hs2, levySigma, sqrt_div hc.le]
    have := (sqrt_pos.2 hc).ne'
    have : √(2 * π) ≠ 0 := by positivity
    rw [show x ^ 2 / (2 * (1 / c)) = c * x ^ 2 / 2 by field_simp]
    field_simp
  have hφ0 : ∀ x, 0 ≤ φ x := fun x => by rw [hφv]; positivity
  have hφm : Measurable φ := by rw [hφ]; exact measurable_gaussianPDFReal _ _
  have hg : Measurable (levyOf xmin) := by unfold levyOf; fun_prop
  have split : Textbook.law φ = Textbook.law ((Ioi (0 : ℝ)).indicator φ) + Textbook.law ((Iio (0 : ℝ)).indicator φ) := by
    rw [← law_add (indicator_nonneg fun x _ => hφ0 x) (indicator_nonneg fun x _ => hφ0 x) (hφm.indicator measurableSet_Ioi)]
    refine law_congr ?_
    filter_upwards [ae_ne' 0] with x hx
    rcases lt_or_gt_of_ne hx with h | h
    · rw [indicator_of_notMem (show x ∉ Ioi 0 from not_lt.2 h.le), indicator_of_mem (show x ∈ Iio 0 from h), zero_add]
    · rw [indicator_of_mem (show x ∈ Ioi 0 from h), indicator_of_notMem (show x ∉ Iio 0 from not_lt.2 h.le), add_zero]
  have der : ∀ x : ℝ, x ≠ 0 → HasDerivAt (levyOf xmin) (-2 / x ^ 3) x := by
    intro x hx
    have h := ((hasDerivAt_pow 2 x).inv (pow_ne_zero 2 hx)).const_add xmin
    refine (h.congr_deriv ?_).congr_of_eventuallyEq (Filter.Eventually.of_forall fun y => ?_)
    · norm_num
      field_simp
    · simp [levyOf]
  have val : ∀ x : ℝ, x ≠ 0 → φ x = |-2 / x ^ 3| * (Textbook.levy c xmin (levyOf xmin x) / 2) := by
    intro x hx
    have h2 : 0 < x ^ 2 := by positivity
    have e : levyOf xmin x - xmin = (x ^ 2)⁻¹ := by rw [levyOf]; ring
    have e3 : ((x ^ 2)⁻¹ : ℝ) ^ (3 / 2 : ℝ) = (|x| ^ 3)⁻¹ := by
      rw [inv_rpow h2.le, ← sq_abs, ← rpow_natCast, ← rpow_mul (abs_nonneg x), ← rpow_natCast]
      norm_num
    rw [Textbook.levy, if_pos (by rw [← sub_pos, e]; positivity), e, e3, hφv, abs_div, abs_pow, abs_neg, abs_two,
      show -c / (2 * (x ^ 2)⁻¹) = -(c * x ^ 2 / 2) by field_simp]
    have := (abs_pos.2 hx).ne'
    field_simp
  have half : ∀ (U : Set ℝ), MeasurableSet U → (∀ x ∈ U, x ≠ 0) → InjOn (levyOf xmin) U → levyOf xmin '' U = Ioi xmin →
      (Textbook.law (U.indicator φ)).map (levyOf xmin) = Textbook.law fun x => Textbook.levy c xmin x / 2 := by
    intro U hU h0 hi him
    refine map_density hU measurableSet_Ioi hg (g' := fun x => -2 / x ^ 3) (fun x hx => der x (h0 x hx)) hi him
      (Filter.Eventually.of_forall fun x hx => indicator_of_notMem hx _)
      (Filter.Eventually.of_forall fun x hx => ?_) (fun x hx => ?_)
    · rw [Textbook.levy, if_neg (show ¬ xmin < x from hx), zero_div]
    · rw [indicator_of_mem hx, val x (h0 x hx)]
  have inj : ∀ x y : ℝ, x ≠ 0 → y ≠ 0 → levyOf xmin x = levyOf xmin y → x ^ 2 = y ^ 2 := by
    intro x y hx hy h
    simp only [levyOf, one_div, add_right_inj, inv_inj] at h
    exact h
  have hpos := half (Ioi 0) measurableSet_Ioi (fun x hx => ne_of_gt hx)
    (fun x hx y hy h => by
      have := inj x y (ne_of_gt hx) (ne_of_gt hy) h
      exact (pow_left_inj₀ (le_of_lt hx) (le_of_lt hy) two_ne_zero).1 this)
    (by
      ext y
      constructor
      · rintro ⟨x, hx, rfl⟩
        have : 0 < x := hx
        show xmin < xmin + 1 / x ^ 2
        have : 0 < 1 / x ^ 2 := by positivity
        linarith
      · intro hy
        have h : 0 < y - xmin := sub_pos.2 hy
        refine ⟨1 / √(y - xmin), mem_Ioi.2 (by positivity), ?_⟩
        rw [levyOf, div_pow, sq_sqrt h.le, one_pow, one_div_one_div]
        ring)
  have hneg := half (Iio 0) measurableSet_Iio (fun x hx => ne_of_lt hx)
    (fun x hx y hy h => by
      have := inj x y (ne_of_lt hx) (ne_of_lt hy) h
      rw [← neg_sq x, ← neg_sq y] at this
      exact neg_injective ((pow_left_inj₀ (neg_nonneg.2 (le_of_lt hx)) (neg_nonneg.2 (le_of_lt hy)) two_ne_zero).1 this))
    (by
      ext y
      constructor
      · rintro ⟨x, hx, rfl⟩
        have : x ≠ 0 := ne_of_lt hx
        show xmin < xmin + 1 / x ^ 2
        have : 0 < 1 / x ^ 2 := by positivity
        linarith
      · intro hy
        have h : 0 < y - xmin := sub_pos.2 hy
        refine ⟨-(1 / √(y - xmin)), mem_Iio.2 (by rw [neg_lt_zero]; positivity), ?_⟩
        rw [levyOf, neg_sq, div_pow, sq_sqrt h.le, one_pow, one_div_one_div]
        ring)
  have hl0 : ∀ x, 0 ≤ Textbook.levy c xmin x / 2 := fun x => div_nonneg (levy_nonneg _ _ x) two_pos.le
  rw [gaussian_law 0 hs, ← hφ, split, Measure.map_add _ _ hg, hpos, hneg,
    ← law_add hl0 hl0 ((measurable_levy _ _).div_const 2)]
  congr 1
  ext x
  ring

/-- the integral of `|t| exp(-b t²)` -/
theorem integral_abs_mul_exp {b : ℝ} (hb : 0 < b) : ∫ t, |t| * exp (-b * t ^ 2) = 1 / b := by
  have h := integral_comp_abs (f := fun t => t * exp (-b * t ^ 2))
  simp only [sq_abs] at h
  rw [h]
  have h2 := integral_rpow_mul_exp_neg_mul_rpow (p := 2) (q := 1) (b := b) two_pos (by norm_num) hb
  have e : ∫ x in Ioi (0 : ℝ), x * exp (-b * x ^ 2) = ∫ x in Ioi (0 : ℝ), x ^ (1 : ℝ) * exp (-b * x ^ (2 : ℝ)) := by
    simp only [rpow_one, rpow_two]
  rw [e, h2]
  norm_num
  rw [rpow_neg_one]
  ring

/-- the quotient of two standard normal variables is a Cauchy variable -/
theorem cauchy_quotient : ((gaussianReal 0 ((1 : ℝ) ^ 2).toNNReal).prod (gaussianReal 0 ((1 : ℝ) ^ 2).toNNReal)).map
    (fun z => z.1 / z.2) = Textbook.law fun x => 1 / (π * (1 + x ^ 2)) := by
  have hg := gaussian_law 0 one_pos
  obtain ⟨φ, hφ⟩ : ∃ φ, φ = gaussianPDFReal 0 ((1 : ℝ) ^ 2).toNNReal := ⟨_, rfl⟩
  have hφi : Integrable φ := by rw [hφ]; exact integrable_gaussianPDFReal _ _
  have hφ0 : ∀ᵐ x, 0 ≤ φ x := by rw [hφ]; exact Filter.Eventually.of_forall (gaussianPDFReal_nonneg _ _)
  have h := (Conv.fibre_dens Conv.fibreDiv hφi hφi hφ0 hφ0).2.2.2
  rw [← hφ] at hg
  have e : (gaussianReal 0 ((1 : ℝ) ^ 2).toNNReal).prod (gaussianReal 0 ((1 : ℝ) ^ 2).toNNReal) =
      ((gaussianReal 0 ((1 : ℝ) ^ 2).toNNReal).prod (gaussianReal 0 ((1 : ℝ) ^ 2).toNNReal)).map Prod.swap :=
    Measure.prod_swap.symm
  rw [e, Measure.map_map (by fun_prop) measurable_swap]
  rw [hg]
  refine Eq.trans h ?_
  rw [Textbook.law]
  congr 1
  ext x
  congr 1
  rw [Conv.fibreK]
  have hv : ∀ t, φ t = 1 / √(2 * π) * exp (-(t ^ 2 / 2)) := by
    intro t
    rw [hφ, gaussianPDF_apply one_pos]
    norm_num
  have e2 : ∀ t, φ t * (|t| * φ (x * t)) = 1 / (2 * π) * (|t| * exp (-((1 + x ^ 2) / 2) * t ^ 2)) := by
    intro t
    have h1 : 1 / √(2 * π) * (1 / √(2 * π)) = 1 / (2 * π) := by
      rw [div_mul_div_comm, one_mul, mul_self_sqrt (by positivity)]
    rw [hv, hv, show -((1 + x ^ 2) / 2) * t ^ 2 = -(t ^ 2 / 2) + -((x * t) ^ 2 / 2) by ring, exp_add, ← h1]
    ring
  simp only [e2]
  rw [integral_const_mul, integral_abs_mul_exp (by positivity)]
  field_simp

/-- `center + X / Y * gamma` for standard normal `X` and `Y` is a Cauchy variable -/
theorem cauchy_law {gamma : ℝ} (hg : 0 < gamma) (center : ℝ) :
    ((gaussianReal 0 ((1 : ℝ) ^ 2).toNNReal).prod (gaussianReal 0 ((1 : ℝ) ^ 2).toNNReal)).map (cauchyOf gamma center) =
      cauchyMeasure center gamma.toNNReal := by
  have e : cauchyOf gamma center = (fun x => center + gamma * x) ∘ fun z : ℝ × ℝ => z.1 / z.2 := by
    ext z
    rw [cauchyOf, Function.comp_apply, mul_comm]
  rw [e, ← Measure.map_map (by fun_prop) (by fun_prop), cauchy_quotient, map_affine center hg]
  have hg0 : gamma.toNNReal ≠ 0 := by
    rw [Ne, Real.toNNReal_eq_zero, not_le]; exact hg
  rw [cauchyMeasure_of_scale_ne_zero _ hg0, Textbook.law]
  congr 1
  ext x
  rw [cauchyPDF]
  congr 1
  rw [cauchyPDFReal, Real.coe_toNNReal _ hg.le]
  field_simp
  ring

/-- the law of `sqrt U` -/
theorem sqrt_law : (Textbook.law ((Ioo (0 : ℝ) 1).indicator 1)).map (fun u => √u) =
    Textbook.law ((Ioo (0 : ℝ) 1).indicator fun t => 2 * t) := by
  refine map_density (U := Ioo 0 1) (V := Ioo 0 1) measurableSet_Ioo measurableSet_Ioo (by fun_prop)
    (g' := fun x => 1 / (2 * √x)) (fun x hx => (hasDerivAt_sqrt hx.1.ne')) ?_ ?_
    (Filter.Eventually.of_forall fun x hx => indicator_of_notMem hx _)
    (Filter.Eventually.of_forall fun x hx => indicator_of_notMem hx _) ?_
  · intro x hx y hy h
    exact (sqrt_inj hx.1.le hy.1.le).1 h
  · ext y
    constructor
    · rintro ⟨x, hx, rfl⟩
      exact ⟨sqrt_pos.2 hx.1, by rw [← sqrt_one]; exact sqrt_lt_sqrt hx.1.le hx.2⟩
    · intro hy
      exact ⟨y ^ 2, ⟨by have := hy.1; positivity, by nlinarith [hy.1, hy.2]⟩, sqrt_sq hy.1.le⟩
  · intro x hx
    have h : √x ∈ Ioo (0 : ℝ) 1 := ⟨sqrt_pos.2 hx.1, by rw [← sqrt_one]; exact sqrt_lt_sqrt hx.1.le hx.2⟩
    rw [indicator_of_mem hx, indicator_of_mem h, Pi.one_apply, abs_of_pos (by have := h.1; positivity)]
    have := h.1.ne'
    field_simp

/-- the arcsine law: `R cos(pi V)` -/
theorem cos_law {R : ℝ} (hR : 0 < R) : (Textbook.law ((Ioo (0 : ℝ) 1).indicator 1)).map (fun v => R * cos (v * π)) =
    Textbook.law ((Ioo (-R) R).indicator fun y => 1 / (π * √(R ^ 2 - y ^ 2))) := by
  have hin : ∀ x ∈ Ioo (0 : ℝ) 1, 0 < x * π ∧ x * π < π := fun x hx =>
    ⟨mul_pos hx.1 pi_pos, by nlinarith [hx.2, pi_pos]⟩
  have hcos : ∀ x ∈ Ioo (0 : ℝ) 1, R * cos (x * π) ∈ Ioo (-R) R := by
    intro x hx
    obtain ⟨h1, h2⟩ := hin x hx
    have hs := sin_pos_of_pos_of_lt_pi h1 h2
    have := sin_sq_add_cos_sq (x * π)
    have h3 : |cos (x * π)| < 1 := by
      rw [← sq_lt_one_iff_abs_lt_one]
      nlinarith [mul_pos hs hs]
    rw [abs_lt] at h3
    constructor <;> nlinarith
  refine map_density (U := Ioo 0 1) (V := Ioo (-R) R) measurableSet_Ioo measurableSet_Ioo (by fun_prop)
    (g' := fun x => R * (-sin (x * π) * π)) (fun x hx => ?_) ?_ ?_
    (Filter.Eventually.of_forall fun x hx => indicator_of_notMem hx _)
    (Filter.Eventually.of_forall fun x hx => indicator_of_notMem hx _) ?_
  · have := ((hasDerivAt_id x).mul_const π).cos.const_mul R
    refine this.congr_deriv ?_
    simp only [id, one_mul]
  · intro x hx y hy h
    have h' : cos (x * π) = cos (y * π) := mul_left_cancel₀ hR.ne' h
    have := injOn_cos ⟨(hin x hx).1.le, (hin x hx).2.le⟩ ⟨(hin y hy).1.le, (hin y hy).2.le⟩ h'
    exact mul_right_cancel₀ pi_ne_zero this
  · ext y
    constructor
    · rintro ⟨x, hx, rfl⟩
      exact hcos x hx
    · intro hy
      have h1 : -1 < y / R := by rw [lt_div_iff₀ hR]; linarith [hy.1]
      have h2 : y / R < 1 := by rw [div_lt_iff₀ hR]; linarith [hy.2]
      refine ⟨arccos (y / R) / π, ⟨div_pos (arccos_pos.2 h2) pi_pos, ?_⟩, ?_⟩
      · rw [div_lt_one pi_pos]
        refine lt_of_le_of_ne (arccos_le_pi _) fun h => ?_
        rw [arccos_eq_pi] at h
        linarith
      · show R * cos (arccos (y / R) / π * π) = y
        rw [div_mul_cancel₀ _ pi_ne_zero, cos_arccos h1.le h2.le]
        field_simp
  · intro x hx
    obtain ⟨h1, h2⟩ := hin x hx
    have hs := sin_pos_of_pos_of_lt_pi h1 h2
    rw [indicator_of_mem hx, indicator_of_mem (hcos x hx), Pi.one_apply,
      show R ^ 2 - (R * cos (x * π)) ^ 2 = (R * sin (x * π)) ^ 2 by
        have := sin_sq_add_cos_sq (x * π); linear_combination R ^ 2 * (-this),
      sqrt_sq (by positivity), show R * (-sin (x * π) * π) = -(R * sin (x * π) * π) by ring, abs_neg, abs_of_pos (by positivity)]
    field_simp

theorem integrable_of_law {f : ℝ → ℝ} (hm : Measurable f) (h0 : ∀ x, 0 ≤ f x) [IsFiniteMeasure (Textbook.law f)] : Integrable f := by
  refine ⟨hm.aestronglyMeasurable, ?_⟩
  rw [hasFiniteIntegral_iff_ofReal (Filter.Eventually.of_forall h0)]
  have := measure_lt_top (Textbook.law f) univ
  rwa [Textbook.law, withDensity_apply _ MeasurableSet.univ, Measure.restrict_univ] at this

theorem isProb_unit : IsProbabilityMeasure (Textbook.law ((Ioo (0 : ℝ) 1).indicator 1)) := by
  constructor
  rw [Textbook.law, withDensity_apply _ MeasurableSet.univ, Measure.restrict_univ]
  have : ∀ x, ENNReal.ofReal ((Ioo (0 : ℝ) 1).indicator 1 x) = (Ioo (0 : ℝ) 1).indicator 1 x := by
    intro x
    by_cases h : x ∈ Ioo (0 : ℝ) 1 <;> simp [h]
  simp only [this]
  rw [lintegral_indicator_one measurableSet_Ioo, Real.volume_Ioo]
  norm_num

/-- the density of the product of `sqrt U` and `R cos(pi V)` -/
theorem semicircle_fibre {R : ℝ} (hR : 0 < R) (x : ℝ) :
    Conv.fibreK (fun x t => x / t) (fun t => |t|⁻¹) ((Ioo (0 : ℝ) 1).indicator fun t => 2 * t)
      ((Ioo (-R) R).indicator fun y => 1 / (π * √(R ^ 2 - y ^ 2))) x = Textbook.semicircle R x := by
  obtain ⟨a, ha⟩ : ∃ a, a = |x| / R := ⟨_, rfl⟩
  have ha0 : 0 ≤ a := by rw [ha]; positivity
  have hmem : ∀ t, 0 < t → (x / t ∈ Ioo (-R) R ↔ a < t) := by
    intro t ht
    rw [mem_Ioo, ← abs_lt, abs_div, abs_of_pos ht, div_lt_iff₀ ht, ha, div_lt_iff₀ hR, mul_comm]
  have e : ∀ t, ((Ioo (0 : ℝ) 1).indicator (fun t => 2 * t) t *
      (|t|⁻¹ * (Ioo (-R) R).indicator (fun y => 1 / (π * √(R ^ 2 - y ^ 2))) (x / t))) =
      (Ioo a 1).indicator (fun t => 2 * t / (π * √(R ^ 2 * t ^ 2 - x ^ 2))) t := by
    intro t
    by_cases ht : t ∈ Ioo (0 : ℝ) 1
    · rw [indicator_of_mem ht]
      by_cases hat : a < t
      · have hp := ht.1
        rw [indicator_of_mem ((hmem t ht.1).2 hat), indicator_of_mem (show t ∈ Ioo a 1 from ⟨hat, ht.2⟩), abs_of_pos hp,
          show R ^ 2 * t ^ 2 - x ^ 2 = t ^ 2 * (R ^ 2 - (x / t) ^ 2) by field_simp, sqrt_mul (sq_nonneg t), sqrt_sq hp.le]
        field_simp
      · rw [indicator_of_notMem (fun h => hat ((hmem t ht.1).1 h)), indicator_of_notMem (fun h => hat h.1), mul_zero, mul_zero]
    · rw [indicator_of_notMem ht, zero_mul, indicator_of_notMem]
      exact fun h => ht ⟨ha0.trans_lt h.1, h.2⟩
  rw [Conv.fibreK]
  simp only [e]
  rw [integral_indicator measurableSet_Ioo, Textbook.semicircle]
  by_cases hx : |x| ≤ R
  · have ha1 : a ≤ 1 := by rw [ha, div_le_one hR]; exact hx
    rw [if_pos hx, ← integral_Ioc_eq_integral_Ioo, ← intervalIntegral.integral_of_le ha1]
    have hpos : ∀ t ∈ Ioo a 1, 0 < R ^ 2 * t ^ 2 - x ^ 2 := by
      intro t ht
      have h1 : |x| < t * R := by rw [← div_lt_iff₀ hR, ← ha]; exact ht.1
      have h2 := abs_nonneg x
      rw [← sq_abs x]
      nlinarith
    have hcont : ContinuousOn (fun t => 2 / (π * R ^ 2) * √(R ^ 2 * t ^ 2 - x ^ 2)) (Icc a 1) := by fun_prop
    have hder : ∀ t ∈ Ioo a 1, HasDerivAt (fun t => 2 / (π * R ^ 2) * √(R ^ 2 * t ^ 2 - x ^ 2))
        (2 * t / (π * √(R ^ 2 * t ^ 2 - x ^ 2))) t := by
      intro t ht
      have h := ((((hasDerivAt_pow 2 t).const_mul (R ^ 2)).sub_const (x ^ 2)).sqrt (hpos t ht).ne').const_mul (2 / (π * R ^ 2))
      refine h.congr_deriv ?_
      have := (sqrt_pos.2 (hpos t ht)).ne'
      norm_num
      field_simp
    have hint : IntervalIntegrable (fun t => 2 * t / (π * √(R ^ 2 * t ^ 2 - x ^ 2))) volume a 1 := by
      refine intervalIntegral.intervalIntegrable_deriv_of_nonneg (g := fun t => 2 / (π * R ^ 2) * √(R ^ 2 * t ^ 2 - x ^ 2)) ?_ ?_ ?_
      · rw [uIcc_of_le ha1]; exact hcont
      · rw [min_eq_left ha1, max_eq_right ha1]; exact hder
      · rw [min_eq_left ha1, max_eq_right ha1]
        intro t ht
        have := ha0.trans ht.1.le
        positivity
    rw [intervalIntegral.integral_eq_sub_of_hasDerivAt_of_le ha1 hcont hder hint,
      show R ^ 2 * a ^ 2 - x ^ 2 = 0 by rw [ha, div_pow, sq_abs]; field_simp; ring]
    simp
  · have ha1 : 1 ≤ a := by rw [ha, one_le_div hR]; exact (not_le.1 hx).le
    rw [if_neg hx, Ioo_eq_empty (not_lt.2 ha1)]
    simp

/-- `R * sqrt(U) * cos(pi * V)` for independent uniform `U` and `V` is a semicircle variable -/
theorem semicircle_law {R : ℝ} (hR : 0 < R) :
    ((Textbook.law ((Ioo (0 : ℝ) 1).indicator 1)).prod (Textbook.law ((Ioo (0 : ℝ) 1).indicator 1))).map (semicircleOf R) =
      Textbook.law (Textbook.semicircle R) := by
  have := isProb_unit
  have hf : Measurable ((Ioo (0 : ℝ) 1).indicator fun t => 2 * t) := Measurable.indicator (by fun_prop) measurableSet_Ioo
  have hg : Measurable ((Ioo (-R) R).indicator fun y => 1 / (π * √(R ^ 2 - y ^ 2))) :=
    Measurable.indicator (by fun_prop) measurableSet_Ioo
  have hf0 : ∀ x, 0 ≤ (Ioo (0 : ℝ) 1).indicator (fun t => 2 * t) x :=
    indicator_nonneg fun x hx => by have := hx.1; positivity
  have hg0 : ∀ x, 0 ≤ (Ioo (-R) R).indicator (fun y => 1 / (π * √(R ^ 2 - y ^ 2))) x :=
    indicator_nonneg fun x hx => by positivity
  have p1 : IsProbabilityMeasure (Textbook.law ((Ioo (0 : ℝ) 1).indicator fun t => 2 * t)) := by
    rw [← sqrt_law]
    exact Measure.isProbabilityMeasure_map (by fun_prop)
  have p2 : IsProbabilityMeasure (Textbook.law ((Ioo (-R) R).indicator fun y => 1 / (π * √(R ^ 2 - y ^ 2)))) := by
    rw [← cos_law hR]
    exact Measure.isProbabilityMeasure_map (by fun_prop)
  have h := (Conv.fibre_dens Conv.fibreMul (integrable_of_law hf hf0) (integrable_of_law hg hg0)
    (Filter.Eventually.of_forall hf0) (Filter.Eventually.of_forall hg0)).2.2.2
  simp only [semicircle_fibre hR] at h
  have e : semicircleOf R = (fun p : ℝ × ℝ => p.1 * p.2) ∘ Prod.map (fun u => √u) (fun v => R * cos (v * π)) := by
    ext u
    simp only [semicircleOf, Function.comp_apply, Prod.map_apply']
    ring
  rw [e, ← Measure.map_map (by fun_prop) (by fun_prop), ← Measure.map_prod_map _ _ (by fun_prop) (by fun_prop), sqrt_law,
    cos_law hR]
  exact h

end Pacal.Sampler
