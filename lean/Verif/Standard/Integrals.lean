import Verif.Standard.Spec
import Mathlib.Analysis.SpecialFunctions.Integrals.Basic
import Mathlib.Analysis.SpecialFunctions.ImproperIntegrals
import Mathlib.MeasureTheory.Integral.IntegralEqImproper
import Mathlib.MeasureTheory.Function.JacobianOneDim
import Mathlib.Analysis.SpecialFunctions.Gamma.Beta

/-!
The textbook densities integrate to one.
-/

namespace Pacal.Standard.Textbook
open Real MeasureTheory Set Filter Topology

theorem integral_of_support {f : ℝ → ℝ} {S : Set ℝ} (hS : MeasurableSet S) (h0 : ∀ x ∉ S, f x = 0) :
    ∫ x, f x = ∫ x in S, f x := (setIntegral_eq_integral_of_forall_compl_eq_zero h0).symm

/-- substitution `y = (x/s)^k` on the half line -/
theorem integral_rpow_scaled (g : ℝ → ℝ) {k s : ℝ} (hk : k ≠ 0) (hs : 0 < s) :
    ∫ x in Ioi 0, |k| / s * (x / s) ^ (k - 1) * g ((x / s) ^ k) = ∫ y in Ioi 0, g y := by
  rw [← integral_comp_rpow_Ioi g hk]
  have := integral_comp_mul_left_Ioi (fun x => |k| * x ^ (k - 1) * g (x ^ k)) 0 (inv_pos.2 hs)
  rw [mul_zero, inv_inv, smul_eq_mul] at this
  rw [show (∫ x in Ioi 0, |k| / s * (x / s) ^ (k - 1) * g ((x / s) ^ k)) =
    s⁻¹ * ∫ x in Ioi 0, |k| * (s⁻¹ * x) ^ (k - 1) * g ((s⁻¹ * x) ^ k) from ?_, this, ← mul_assoc,
    inv_mul_cancel₀ hs.ne', one_mul]
  · simp only [smul_eq_mul]
  · rw [← integral_const_mul]
    congr 1
    ext x
    rw [div_eq_inv_mul x s]
    ring

theorem integral_weibull {k l : ℝ} (hk : 0 < k) (hl : 0 < l) : ∫ x, weibull k l x = 1 := by
  rw [integral_of_support (f := weibull k l) measurableSet_Ioi (S := Ioi 0) (fun x hx => if_neg hx)]
  have := integral_rpow_scaled (fun y => exp (-y)) hk.ne' hl
  rw [integral_exp_neg_Ioi_zero, abs_of_pos hk] at this
  rw [← this]
  exact setIntegral_congr_fun measurableSet_Ioi fun x hx => if_pos hx

theorem integral_Ioi_inv_sq : ∫ y in Ioi (0:ℝ), 1 / (1 + y) ^ 2 = 1 := by
  have hd : ∀ x ∈ Ici (0:ℝ), HasDerivAt (fun y : ℝ => -(1 + y)⁻¹) (1 / (1 + x) ^ 2) x := by
    intro x hx
    have hx' : (0:ℝ) ≤ x := hx
    have h1 : HasDerivAt (fun y : ℝ => 1 + y) 1 x := by simpa using (hasDerivAt_id x).const_add 1
    have := (h1.inv (by positivity)).neg
    exact this.congr_deriv (by rw [neg_div, neg_neg])
  have hlim : Tendsto (fun y : ℝ => -(1 + y)⁻¹) atTop (𝓝 0) := by
    have := (tendsto_inv_atTop_zero.comp (tendsto_atTop_add_const_left atTop (1:ℝ) tendsto_id)).neg
    simpa using this
  have hi := integrableOn_Ioi_deriv_of_nonneg' hd (fun x hx => by positivity) hlim
  rw [integral_Ioi_of_hasDerivAt_of_tendsto' hd hi hlim]
  norm_num

theorem integral_logLogistic {k s : ℝ} (hk : 0 < k) (hs : 0 < s) : ∫ x, logLogistic k s x = 1 := by
  rw [integral_of_support (f := logLogistic k s) measurableSet_Ioi (S := Ioi 0) (fun x hx => if_neg hx)]
  have := integral_rpow_scaled (fun y => 1 / (1 + y) ^ 2) hk.ne' hs
  rw [integral_Ioi_inv_sq, abs_of_pos hk] at this
  rw [← this]
  refine setIntegral_congr_fun measurableSet_Ioi fun x hx => ?_
  simp only [logLogistic]
  rw [if_pos (mem_Ioi.1 hx)]
  ring

theorem integral_translate {f : ℝ → ℝ} (m : ℝ) (h : ∫ x, f x = 1) : ∫ x, f (x - m) = 1 := by
  rw [integral_sub_right_eq_self f m, h]

theorem integral_frechet {a s : ℝ} (m : ℝ) (ha : 0 < a) (hs : 0 < s) : ∫ x, frechet a s m x = 1 := by
  have h0 : ∀ x, frechet a s m x = frechet a s 0 (x - m) := by
    intro x
    simp only [frechet, sub_zero, sub_pos]
  rw [funext h0]
  refine integral_translate m ?_
  rw [integral_of_support (f := frechet a s 0) measurableSet_Ioi (S := Ioi 0) (fun x hx => if_neg hx)]
  have := integral_rpow_scaled (fun y => exp (-y)) (neg_ne_zero.2 ha.ne') hs
  rw [integral_exp_neg_Ioi_zero, abs_neg, abs_of_pos ha] at this
  rw [← this]
  refine setIntegral_congr_fun measurableSet_Ioi fun x hx => ?_
  simp only [frechet]
  rw [if_pos (mem_Ioi.1 hx), sub_zero, show -a - 1 = -1 - a by ring]

theorem integral_levy {c : ℝ} (m : ℝ) (hc : 0 < c) : ∫ x, levy c m x = 1 := by
  have h0 : ∀ x, levy c m x = levy c 0 (x - m) := by
    intro x
    simp only [levy, sub_zero, sub_pos]
  rw [funext h0]
  refine integral_translate m ?_
  rw [integral_of_support (f := levy c 0) measurableSet_Ioi (S := Ioi 0) (fun x hx => if_neg hx)]
  have h1 := integral_comp_rpow_Ioi (fun y => y ^ ((1 / 2 : ℝ) - 1) * exp (-(c / 2 * y))) (p := -1) (by norm_num)
  rw [integral_rpow_mul_exp_neg_mul_Ioi (by norm_num) (by positivity), Gamma_one_half_eq] at h1
  have h2 : ∀ x ∈ Ioi (0:ℝ), levy c 0 x = √(c / (2 * π)) *
      ((|(-1:ℝ)| * x ^ ((-1:ℝ) - 1)) • ((x ^ (-1:ℝ)) ^ ((1 / 2 : ℝ) - 1) * exp (-(c / 2 * x ^ (-1:ℝ))))) := by
    intro x hx
    have hx : 0 < x := hx
    simp only [levy]
    rw [if_pos hx, sub_zero, abs_neg, abs_one, one_mul, smul_eq_mul, ← rpow_mul hx.le, ← mul_assoc (x ^ _),
      ← rpow_add hx, rpow_neg_one, show (-1:ℝ) - 1 + -1 * (1 / 2 - 1) = -(3 / 2) by norm_num, rpow_neg hx.le]
    rw [show -c / (2 * x) = -(c / 2 * x⁻¹) by field_simp]
    ring
  rw [setIntegral_congr_fun measurableSet_Ioi h2, integral_const_mul, h1, one_div_div, ← sqrt_eq_rpow,
    ← sqrt_mul (by positivity), ← sqrt_mul (by positivity)]
  rw [show c / (2 * π) * (2 / c * π) = 1 by field_simp, sqrt_one]

theorem integral_laplace {b : ℝ} (m : ℝ) (hb : 0 < b) : ∫ x, laplace b m x = 1 := by
  have h0 : ∀ x, laplace b m x = laplace b 0 (x - m) := by
    intro x
    simp only [laplace, sub_zero]
  rw [funext h0]
  refine integral_translate m ?_
  have h1 : ∀ x, laplace b 0 x = (fun y => 1 / (2 * b) * exp (-(y / b))) |x| := by
    intro x
    simp only [laplace, sub_zero]
  rw [funext h1, integral_comp_abs, integral_const_mul]
  have h2 := integral_comp_mul_left_Ioi (fun y => exp (-y)) 0 (inv_pos.2 hb)
  rw [mul_zero, integral_exp_neg_Ioi_zero, inv_inv, smul_eq_mul, mul_one] at h2
  simp only [div_eq_inv_mul] at h2 ⊢
  rw [h2]
  field_simp

theorem integral_gumbel {b : ℝ} (m : ℝ) (hb : 0 < b) (t₀ : ℝ) :
    ∫ x in Ici (m - b * t₀), gumbel m b x = 1 - exp (-exp t₀) := by
  have hd : ∀ x ∈ Ici (m - b * t₀), HasDerivAt (fun x : ℝ => exp (-exp (-((x - m) / b)))) (gumbel m b x) x := by
    intro x _
    have h1 : HasDerivAt (fun x : ℝ => -((x - m) / b)) (-(1 / b)) x :=
      (((hasDerivAt_id x).sub_const m).div_const b).neg
    refine h1.exp.neg.exp.congr_deriv ?_
    rw [gumbel, neg_add, exp_add, Pi.neg_apply]
    ring
  have hlim : Tendsto (fun x : ℝ => exp (-exp (-((x - m) / b)))) atTop (𝓝 1) := by
    have h1 : Tendsto (fun x : ℝ => -((x - m) / b)) atTop atBot :=
      tendsto_neg_atTop_atBot.comp ((tendsto_atTop_add_const_right atTop (-m) tendsto_id).atTop_div_const hb)
    have h2 := (tendsto_exp_atBot.comp h1).neg
    have h3 := (continuous_exp.tendsto (-0)).comp h2
    rw [neg_zero, exp_zero] at h3
    exact h3
  have hi := integrableOn_Ioi_deriv_of_nonneg' hd (fun x hx => by rw [gumbel]; positivity) hlim
  rw [integral_Ici_eq_integral_Ioi, integral_Ioi_of_hasDerivAt_of_tendsto' hd hi hlim]
  congr 4
  field_simp
  ring

theorem integral_semicircle {R : ℝ} (hR : 0 < R) : ∫ x, semicircle R x = 1 := by
  rw [integral_of_support (f := semicircle R) measurableSet_Icc (S := Icc (-R) R) (fun x hx => if_neg fun h => hx (abs_le.1 h)),
    integral_Icc_eq_integral_Ioc, ← intervalIntegral.integral_of_le (by linarith)]
  have h1 : ∫ x in (-R)..R, √(1 - (x / R) ^ 2) = R * (π / 2) := by
    rw [intervalIntegral.integral_comp_div (fun x => √(1 - x ^ 2)) hR.ne', neg_div, div_self hR.ne',
      integral_sqrt_one_sub_sq, smul_eq_mul]
  have h2 : ∫ x in (-R)..R, semicircle R x = ∫ x in (-R)..R, 2 / (π * R) * √(1 - (x / R) ^ 2) := by
    refine intervalIntegral.integral_congr fun x hx => ?_
    rw [uIcc_of_le (by linarith)] at hx
    simp only [semicircle]
    rw [if_pos (abs_le.2 hx), show R ^ 2 - x ^ 2 = R ^ 2 * (1 - (x / R) ^ 2) by field_simp,
      sqrt_mul (sq_nonneg _), sqrt_sq hR.le]
    field_simp
  rw [h2, intervalIntegral.integral_const_mul, h1]
  field_simp

theorem integral_beta {a b : ℝ} (ha : 0 < a) (hb : 0 < b) :
    ∫ u in Ioo (0:ℝ) 1, u ^ (a - 1) * (1 - u) ^ (b - 1) = ProbabilityTheory.beta a b := by
  have hB := ProbabilityTheory.beta_pos ha hb
  have hnn : ∀ x, 0 ≤ ProbabilityTheory.betaPDFReal a b x := by
    intro x
    by_cases h : 0 < x ∧ x < 1
    · exact (ProbabilityTheory.betaPDFReal_pos h.1 h.2 ha hb).le
    · rw [ProbabilityTheory.betaPDFReal, if_neg h]
  have h1 : ∫ x, ProbabilityTheory.betaPDFReal a b x = 1 := by
    rw [integral_eq_lintegral_of_nonneg_ae (Eventually.of_forall hnn)
      (ProbabilityTheory.measurable_betaPDFReal a b).aestronglyMeasurable]
    have := ProbabilityTheory.lintegral_betaPDF_eq_one ha hb
    simp only [ProbabilityTheory.betaPDF] at this
    rw [this, ENNReal.toReal_one]
  rw [integral_of_support (f := ProbabilityTheory.betaPDFReal a b) measurableSet_Ioo (S := Ioo 0 1)
    (fun x hx => if_neg hx)] at h1
  have h2 : ∫ x in Ioo (0:ℝ) 1, ProbabilityTheory.betaPDFReal a b x =
      ∫ u in Ioo (0:ℝ) 1, 1 / ProbabilityTheory.beta a b * (u ^ (a - 1) * (1 - u) ^ (b - 1)) :=
    setIntegral_congr_fun measurableSet_Ioo fun x hx => by
      simp only [ProbabilityTheory.betaPDFReal]
      rw [if_pos (show 0 < x ∧ x < 1 from hx), mul_assoc]
  rw [h2, integral_const_mul] at h1
  field_simp at h1
  exact h1

theorem integral_betaPrime {a b : ℝ} (ha : 0 < a) (hb : 0 < b) :
    ∫ t in Ioi (0:ℝ), t ^ (a - 1) * (1 + t) ^ (-(a + b)) = ProbabilityTheory.beta a b := by
  have himg : (fun u : ℝ => u / (1 - u)) '' Ioo 0 1 = Ioi 0 := by
    ext t
    constructor
    · rintro ⟨u, hu, rfl⟩
      exact div_pos hu.1 (by linarith [hu.2])
    · intro ht
      have ht : 0 < t := ht
      refine ⟨t / (1 + t), ⟨by positivity, by rw [div_lt_one (by positivity)]; linarith⟩, ?_⟩
      have h2 : 1 - t / (1 + t) = 1 / (1 + t) := by field_simp; ring
      simp only [h2]
      field_simp
  have hd : ∀ u ∈ Ioo (0:ℝ) 1, HasDerivWithinAt (fun u : ℝ => u / (1 - u)) (1 / (1 - u) ^ 2) (Ioo 0 1) u := by
    intro u hu
    have hne : 1 - u ≠ 0 := by linarith [hu.2]
    have h1 : HasDerivAt (fun u : ℝ => 1 - u) (-1) u := by simpa using (hasDerivAt_id u).const_sub 1
    refine (((hasDerivAt_id u).div h1 hne).congr_deriv ?_).hasDerivWithinAt
    simp
  have hinj : InjOn (fun u : ℝ => u / (1 - u)) (Ioo 0 1) := by
    intro u hu v hv h
    have h1 : 1 - u ≠ 0 := by linarith [hu.2]
    have h2 : 1 - v ≠ 0 := by linarith [hv.2]
    simp only at h
    rw [div_eq_div_iff h1 h2] at h
    linarith
  rw [← himg, integral_image_eq_integral_abs_deriv_smul measurableSet_Ioo hd hinj, ← integral_beta ha hb]
  refine setIntegral_congr_fun measurableSet_Ioo fun u hu => ?_
  have hu0 : 0 < u := hu.1
  have hu1 : 0 < 1 - u := by linarith [hu.2]
  simp only [smul_eq_mul]
  have h1 : 1 + u / (1 - u) = (1 - u)⁻¹ := by field_simp; ring
  rw [h1, abs_of_pos (by positivity), div_rpow hu0.le hu1.le, inv_rpow hu1.le, rpow_neg hu1.le, inv_inv, one_div,
    ← rpow_natCast, ← rpow_neg hu1.le, div_eq_mul_inv, ← rpow_neg hu1.le]
  have h2 : (1 - u) ^ (-((2:ℕ):ℝ)) * (u ^ (a - 1) * (1 - u) ^ (-(a - 1)) * (1 - u) ^ (a + b)) =
    u ^ (a - 1) * ((1 - u) ^ (-((2:ℕ):ℝ)) * (1 - u) ^ (-(a - 1)) * (1 - u) ^ (a + b)) := by ring
  rw [h2, ← rpow_add hu1, ← rpow_add hu1]
  congr 2
  push_cast
  ring

theorem fisher_formula {d₁ d₂ : ℝ} (h₁ : 0 < d₁) (h₂ : 0 < d₂) : ∀ x ∈ Ioi (0:ℝ),
    fisher d₁ d₂ x = (d₁ / d₂) / ProbabilityTheory.beta (d₁ / 2) (d₂ / 2) *
      ((d₁ / d₂ * x) ^ (d₁ / 2 - 1) * (1 + d₁ / d₂ * x) ^ (-(d₁ / 2 + d₂ / 2))) := by
  have hB := ProbabilityTheory.beta_pos (half_pos h₁) (half_pos h₂)
  intro x hx
  have hx : 0 < x := hx
  simp only [fisher]
  rw [if_pos hx, sqrt_eq_rpow, div_rpow (by positivity) (by positivity), mul_rpow (by positivity) (by positivity),
    ← rpow_mul (by positivity), ← rpow_mul (by positivity), ← rpow_mul (by positivity),
    show d₁ * x + d₂ = d₂ * (1 + d₁ / d₂ * x) by field_simp; ring,
    show d₁ * x = d₂ * (d₁ / d₂ * x) by field_simp, mul_rpow h₂.le (by positivity), mul_rpow h₂.le (by positivity),
    show d₁ * (1 / 2) = d₁ / 2 by ring, show d₂ * (1 / 2) = d₂ / 2 by ring,
    show (d₁ + d₂) * (1 / 2) = d₁ / 2 + d₂ / 2 by ring, rpow_add h₂, rpow_neg (by positivity), rpow_sub_one (by positivity)]
  have e1 := (rpow_pos_of_pos h₂ (d₁ / 2)).ne'
  have e2 := (rpow_pos_of_pos h₂ (d₂ / 2)).ne'
  have e3 := (rpow_pos_of_pos (show 0 < 1 + d₁ / d₂ * x by positivity) (d₁ / 2 + d₂ / 2)).ne'
  generalize d₂ ^ (d₁ / 2) = A at *
  generalize d₂ ^ (d₂ / 2) = B at *
  generalize (1 + d₁ / d₂ * x) ^ (d₁ / 2 + d₂ / 2) = C at *
  generalize (d₁ / d₂ * x) ^ (d₁ / 2) = D at *
  field_simp

theorem integral_fisher {d₁ d₂ : ℝ} (h₁ : 0 < d₁) (h₂ : 0 < d₂) : ∫ x, fisher d₁ d₂ x = 1 := by
  have hB := ProbabilityTheory.beta_pos (half_pos h₁) (half_pos h₂)
  rw [integral_of_support (f := fisher d₁ d₂) measurableSet_Ioi (S := Ioi 0) (fun x hx => if_neg hx)]
  have h := integral_comp_mul_left_Ioi (fun t => t ^ (d₁ / 2 - 1) * (1 + t) ^ (-(d₁ / 2 + d₂ / 2))) 0 (div_pos h₁ h₂)
  rw [mul_zero, integral_betaPrime (half_pos h₁) (half_pos h₂), smul_eq_mul] at h
  have h2 := fisher_formula h₁ h₂
  rw [setIntegral_congr_fun measurableSet_Ioi h2, integral_const_mul, h]
  field_simp

theorem integral_studentT {v : ℝ} (hv : 0 < v) : ∫ x, studentT v x = 1 := by
  have h0 : ∀ x, studentT v x = (fun y => Gamma ((v + 1) / 2) / (√(v * π) * Gamma (v / 2)) *
      (1 + y ^ 2 / v) ^ (-((v + 1) / 2))) |x| := by
    intro x
    simp only [studentT, sq_abs]
  rw [funext h0, integral_comp_abs, integral_const_mul]
  have hs : 0 < √v := sqrt_pos.2 hv
  have h := integral_rpow_scaled (fun y => y ^ ((1 / 2 : ℝ) - 1) * (1 + y) ^ (-(1 / 2 + v / 2))) two_ne_zero hs
  rw [integral_betaPrime (by norm_num) (half_pos hv)] at h
  have h2 : ∀ x ∈ Ioi (0:ℝ), (1 + x ^ 2 / v) ^ (-((v + 1) / 2)) = √v / 2 *
      (|(2:ℝ)| / √v * (x / √v) ^ ((2:ℝ) - 1) *
        (((x / √v) ^ (2:ℝ)) ^ ((1 / 2 : ℝ) - 1) * (1 + (x / √v) ^ (2:ℝ)) ^ (-(1 / 2 + v / 2)))) := by
    intro x hx
    have hx : 0 < x := hx
    have hxv : 0 < x / √v := by positivity
    rw [← rpow_mul hxv.le, show (2:ℝ) - 1 = 1 by norm_num, rpow_one, show (2:ℝ) * (1 / 2 - 1) = -1 by norm_num,
      rpow_neg_one, rpow_two, div_pow, sq_sqrt hv.le, abs_two, show -(1 / 2 + v / 2) = -((v + 1) / 2) by ring]
    field_simp
  rw [setIntegral_congr_fun measurableSet_Ioi h2, integral_const_mul, h, ProbabilityTheory.beta, Gamma_one_half_eq,
    sqrt_mul hv.le, show (1:ℝ) / 2 + v / 2 = (v + 1) / 2 by ring]
  have g1 := Gamma_pos_of_pos (half_pos hv)
  have g2 := Gamma_pos_of_pos (show 0 < (v + 1) / 2 by linarith)
  field_simp

end Pacal.Standard.Textbook
