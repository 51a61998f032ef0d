import Verif.Sampler.Spec
import Verif.Standard.PropsRange
import Verif.Conv.Mellin

/-! Push-forward of densities, for the samplers. -/

namespace Pacal.Sampler
open MeasureTheory ProbabilityTheory Real Standard Set

/-- change of variables for a law with a density -/
theorem map_density {U V : Set ℝ} (hU : MeasurableSet U) (hV : MeasurableSet V) {g g' : ℝ → ℝ} (hg : Measurable g)
    (hd : ∀ x ∈ U, HasDerivAt g (g' x) x) (hi : InjOn g U) (him : g '' U = V) {f h : ℝ → ℝ}
    (hf : ∀ᵐ x, x ∉ U → f x = 0) (hh : ∀ᵐ x, x ∉ V → h x = 0) (he : ∀ x ∈ U, f x = |g' x| * h (g x)) :
    (Textbook.law f).map g = Textbook.law h := by
  have cut : ∀ {W A : Set ℝ} {k : ℝ → ℝ}, MeasurableSet W → MeasurableSet A → (∀ᵐ x, x ∉ W → k x = 0) →
      ∫⁻ x in A, ENNReal.ofReal (k x) = ∫⁻ x in W ∩ A, ENNReal.ofReal (k x) := by
    intro W A k hW hA hk
    rw [← lintegral_indicator hA, ← lintegral_indicator (hW.inter hA)]
    refine lintegral_congr_ae ?_
    filter_upwards [hk] with x hx
    by_cases hA' : x ∈ A
    · by_cases hW' : x ∈ W
      · rw [indicator_of_mem hA', indicator_of_mem (show x ∈ W ∩ A from ⟨hW', hA'⟩)]
      · rw [indicator_of_mem hA', indicator_of_notMem (fun h => hW' h.1), hx hW', ENNReal.ofReal_zero]
    · rw [indicator_of_notMem hA', indicator_of_notMem (fun h => hA' h.2)]
  ext A hA
  rw [Measure.map_apply hg hA, Textbook.law, Textbook.law, withDensity_apply _ (hg hA), withDensity_apply _ hA,
    cut hU (hg hA) hf, cut hV hA hh]
  have e : V ∩ A = g '' (U ∩ g ⁻¹' A) := by
    rw [image_inter_preimage, him]
  rw [e, lintegral_image_eq_lintegral_abs_deriv_mul (hU.inter (hg hA)) (fun x hx => (hd x hx.1).hasDerivWithinAt)
    (hi.mono inter_subset_left)]
  refine setLIntegral_congr_fun (hU.inter (hg hA)) fun x hx => ?_
  show ENNReal.ofReal (f x) = _
  rw [he x hx.1, ENNReal.ofReal_mul (abs_nonneg _)]

/-- the uniform law on `[0, 1)` has density 1 on `(0, 1)` -/
theorem uniform01 : ProbabilityTheory.cond volume (Ico (0 : ℝ) 1) = Textbook.law ((Ioo (0 : ℝ) 1).indicator 1) := by
  rw [ProbabilityTheory.cond, Real.volume_Ico, sub_zero, ENNReal.ofReal_one, inv_one, one_smul, Textbook.law,
    (Measure.restrict_congr_set Ioo_ae_eq_Ico).symm]
  have : (fun x => ENNReal.ofReal ((Ioo (0 : ℝ) 1).indicator 1 x)) = (Ioo (0 : ℝ) 1).indicator 1 := by
    ext x
    by_cases hx : x ∈ Ioo (0 : ℝ) 1
    · simp [indicator_of_mem hx]
    · simp [indicator_of_notMem hx]
  rw [this, withDensity_indicator measurableSet_Ioo, withDensity_one]

theorem ae_ne' (a : ℝ) : ∀ᵐ x : ℝ, x ≠ a := Conv.ae_ne_real a

/-- an affine image of a density -/
theorem map_affine {f : ℝ → ℝ} (m : ℝ) {s : ℝ} (hs : 0 < s) :
    (Textbook.law f).map (fun x => m + s * x) = Textbook.law fun x => 1 / s * f ((x - m) / s) := by
  refine map_density (U := univ) (V := univ) MeasurableSet.univ MeasurableSet.univ (by fun_prop)
    (g' := fun _ => s) (fun x _ => ?_) ?_ ?_ (by simp) (by simp) ?_
  · simpa using ((hasDerivAt_id x).const_mul s).const_add m
  · intro x _ y _ h
    simpa [hs.ne'] using h
  · refine eq_univ_of_forall fun y => ⟨(y - m) / s, trivial, ?_⟩
    field_simp; ring
  · intro x _
    rw [abs_of_pos hs, show (m + s * x - m) / s = x by field_simp; ring]
    field_simp

/-- `xmin + pareto(alpha) * xmin` is a Pareto variable -/
theorem pareto_law {alpha xmin : ℝ} (ha : 0 < alpha) (hx : 0 < xmin) :
    (Textbook.law (lomax alpha)).map (paretoOf xmin) = paretoMeasure xmin alpha := by
  have e : paretoOf xmin = fun y => xmin + xmin * y := by ext y; rw [paretoOf, mul_comm]
  rw [e, map_affine xmin hx, paretoMeasure, Textbook.law]
  congr 1
  ext x
  rw [paretoPDF]
  congr 1
  rw [lomax, paretoPDFReal]
  by_cases h : xmin ≤ x
  · rw [if_pos h, if_pos (div_nonneg (by linarith) hx.le)]
    have hx0 : 0 < x := hx.trans_le h
    rw [show 1 + (x - xmin) / xmin = x / xmin by field_simp; ring, div_rpow hx0.le hx.le, rpow_neg hx0.le,
      rpow_add hx, rpow_one]
    have := (rpow_pos_of_pos hx alpha).ne'
    have := (rpow_pos_of_pos hx0 (alpha + 1)).ne'
    field_simp
  · rw [if_neg h, if_neg, mul_zero]
    rw [not_le, div_lt_iff₀ hx]
    linarith

/-- `lmbda * weibull(k)` is a Weibull variable with scale `lmbda` -/
theorem weibull_law {k lmbda : ℝ} (hl : 0 < lmbda) :
    (Textbook.law (Textbook.weibull k 1)).map (weibullOf lmbda) = Textbook.law (Textbook.weibull k lmbda) := by
  have e : weibullOf lmbda = fun y => 0 + lmbda * y := by ext y; rw [weibullOf, zero_add]
  rw [e, map_affine 0 hl]
  congr 1
  ext x
  rw [Textbook.weibull, Textbook.weibull, sub_zero]
  by_cases h : 0 < x
  · rw [if_pos h, if_pos (div_pos h hl), div_one, div_one]
    field_simp
  · rw [if_neg h, if_neg, mul_zero]
    rw [not_lt] at h ⊢
    exact div_nonpos_of_nonpos_of_nonneg h hl.le

/-- the inverse of the Fréchet distribution function at a uniform draw -/
theorem frechet_law {alpha s : ℝ} (ha : 0 < alpha) (hs : 0 < s) (m : ℝ) :
    (Textbook.law ((Ioo (0 : ℝ) 1).indicator 1)).map (frechetOf alpha s m) =
      Textbook.law (Textbook.frechet alpha s m) := by
  have hlog : ∀ x ∈ Ioo (0 : ℝ) 1, 0 < -log x := fun x hx => neg_pos.2 (log_neg hx.1 hx.2)
  have ht : ∀ x ∈ Ioo (0 : ℝ) 1, (frechetOf alpha s m x - m) / s = (-log x) ^ (-1 / alpha) := by
    intro x _
    rw [frechetOf]
    field_simp
    ring
  refine map_density (U := Ioo 0 1) measurableSet_Ioo measurableSet_Ioi (V := Ioi m) (by unfold frechetOf; fun_prop)
    (g' := fun x => s * (1 / x * (1 / alpha) * (-log x) ^ (-1 / alpha - 1))) (fun x hx => ?_) ?_ ?_ ?_ ?_ ?_
  · have h1 := ((hasDerivAt_log hx.1.ne').neg.rpow_const (p := -1 / alpha) (.inl (hlog x hx).ne')).const_mul s |>.const_add m
    refine h1.congr_deriv ?_
    rw [Pi.neg_apply]
    ring
  · intro x hx y hy h
    have h1 : (-log x) ^ (-1 / alpha) = (-log y) ^ (-1 / alpha) := by rw [← ht x hx, ← ht y hy, h]
    have h2 := (rpow_left_inj (hlog x hx).le (hlog y hy).le (by
      rw [neg_div]; exact neg_ne_zero.2 (by positivity))).1 h1
    exact log_injOn_pos hx.1 hy.1 (neg_injective h2)
  · ext y
    constructor
    · rintro ⟨x, hx, rfl⟩
      have : 0 < s * (-log x) ^ (-1 / alpha) := mul_pos hs (rpow_pos_of_pos (hlog x hx) _)
      show m < m + _
      linarith
    · intro hy
      have h0 : 0 < (y - m) / s := div_pos (sub_pos.2 hy) hs
      have h1 := rpow_pos_of_pos h0 (-alpha)
      refine ⟨exp (-((y - m) / s) ^ (-alpha)), ⟨exp_pos _, exp_lt_one_iff.2 (by linarith)⟩, ?_⟩
      rw [frechetOf, log_exp, neg_neg, ← rpow_mul h0.le, show -alpha * (-1 / alpha) = 1 by field_simp, rpow_one]
      field_simp; ring
  · exact Filter.Eventually.of_forall fun x hx => indicator_of_notMem hx _
  · exact Filter.Eventually.of_forall fun x hx => if_neg hx
  · intro x hx
    have hl := hlog x hx
    have hp : 0 < (-log x) ^ (-1 / alpha) := rpow_pos_of_pos hl _
    rw [indicator_of_mem hx, Pi.one_apply, Textbook.frechet, ht x hx, if_pos (by
      rw [frechetOf]; nlinarith [mul_pos hs hp]), ← rpow_mul hl.le, ← rpow_mul hl.le,
      show -1 / alpha * -alpha = 1 by field_simp, rpow_one, neg_neg, exp_log hx.1, abs_of_pos (by
        have := hx.1; have := rpow_pos_of_pos hl (-1 / alpha - 1); positivity)]
    have e : (-log x) ^ (-1 / alpha - 1) * (-log x) ^ (-1 / alpha * (-1 - alpha)) = 1 := by
      rw [← rpow_add hl, show -1 / alpha - 1 + -1 / alpha * (-1 - alpha) = 0 by field_simp; ring, rpow_zero]
    have hx0 := hx.1.ne'
    calc (1 : ℝ) = (-log x) ^ (-1 / alpha - 1) * (-log x) ^ (-1 / alpha * (-1 - alpha)) := e.symm
      _ = _ := by field_simp

/-- the inverse of the log-logistic distribution function at a uniform draw -/
theorem logLogistic_law {k s : ℝ} (hk : 0 < k) (hs : 0 < s) :
    (Textbook.law ((Ioo (0 : ℝ) 1).indicator 1)).map (logLogisticOf k s) = Textbook.law (Textbook.logLogistic k s) := by
  have hodds : ∀ x ∈ Ioo (0 : ℝ) 1, 0 < x / (1 - x) := fun x hx => div_pos hx.1 (sub_pos.2 hx.2)
  have ht : ∀ x ∈ Ioo (0 : ℝ) 1, logLogisticOf k s x / s = (x / (1 - x)) ^ (1 / k) := by
    intro x _
    rw [logLogisticOf]
    field_simp
  refine map_density (U := Ioo 0 1) measurableSet_Ioo measurableSet_Ioi (V := Ioi 0) (by unfold logLogisticOf; fun_prop)
    (g' := fun x => s * (1 / (1 - x) ^ 2 * (1 / k) * (x / (1 - x)) ^ (1 / k - 1))) (fun x hx => ?_) ?_ ?_ ?_ ?_ ?_
  · have h0 : 1 - x ≠ 0 := (sub_pos.2 hx.2).ne'
    have h1 := ((hasDerivAt_id x).div ((hasDerivAt_id x).const_sub 1) h0)
    have h2 := (h1.rpow_const (p := 1 / k) (.inl (hodds x hx).ne')).const_mul s
    refine h2.congr_deriv ?_
    simp only [id]
    field_simp
    ring_nf
    rfl
  · intro x hx y hy h
    have h1 : (x / (1 - x)) ^ (1 / k) = (y / (1 - y)) ^ (1 / k) := by rw [← ht x hx, ← ht y hy, h]
    have h2 := (rpow_left_inj (hodds x hx).le (hodds y hy).le (by positivity)).1 h1
    rw [div_eq_div_iff (sub_pos.2 hx.2).ne' (sub_pos.2 hy.2).ne'] at h2
    linarith
  · ext y
    constructor
    · rintro ⟨x, hx, rfl⟩
      exact mul_pos hs (rpow_pos_of_pos (hodds x hx) _)
    · intro hy
      have h0 : 0 < y / s := div_pos hy hs
      have h1 := rpow_pos_of_pos h0 k
      refine ⟨(y / s) ^ k / (1 + (y / s) ^ k), ⟨by positivity, (div_lt_one (by positivity)).2 (by linarith)⟩, ?_⟩
      rw [logLogisticOf, show (y / s) ^ k / (1 + (y / s) ^ k) / (1 - (y / s) ^ k / (1 + (y / s) ^ k)) = (y / s) ^ k by
        field_simp; ring, ← rpow_mul h0.le, mul_one_div_cancel hk.ne', rpow_one]
      field_simp
  · exact Filter.Eventually.of_forall fun x hx => indicator_of_notMem hx _
  · exact Filter.Eventually.of_forall fun x hx => if_neg hx
  · intro x hx
    have ho := hodds x hx
    have h1x : 0 < 1 - x := sub_pos.2 hx.2
    have hp : 0 < (x / (1 - x)) ^ (1 / k) := rpow_pos_of_pos ho _
    rw [indicator_of_mem hx, Pi.one_apply, Textbook.logLogistic, ht x hx, if_pos (show 0 < logLogisticOf k s x from mul_pos hs hp), ← rpow_mul ho.le,
      ← rpow_mul ho.le, one_div_mul_cancel hk.ne', rpow_one, abs_of_pos (by
        have := rpow_pos_of_pos ho (1 / k - 1); positivity)]
    have e : (x / (1 - x)) ^ (1 / k - 1) * (x / (1 - x)) ^ (1 / k * (k - 1)) = 1 := by
      rw [← rpow_add ho, show 1 / k - 1 + 1 / k * (k - 1) = 0 by field_simp; ring, rpow_zero]
    have e2 : 1 + x / (1 - x) = 1 / (1 - x) := by field_simp; ring
    rw [e2]
    calc (1 : ℝ) = (x / (1 - x)) ^ (1 / k - 1) * (x / (1 - x)) ^ (1 / k * (k - 1)) := e.symm
      _ = _ := by field_simp

end Pacal.Sampler
