import Verif.Conv.Spec
import Mathlib.MeasureTheory.Measure.Lebesgue.EqHaar
import Mathlib.MeasureTheory.Function.Jacobian
import Mathlib.MeasureTheory.Integral.Prod
import Mathlib.Analysis.Calculus.Deriv.Inv

/-! The density of a product and of a quotient of independent variables with densities. -/

namespace Pacal
namespace Conv
open MeasureTheory Set

/-- for fixed `t ≠ 0`, `y ↦ op t y` has the inverse `x ↦ u x t` with derivative `w t` -/
structure Fibre (op u : ℝ → ℝ → ℝ) (w : ℝ → ℝ) : Prop where
  meas : Measurable fun p : ℝ × ℝ => op p.1 p.2
  umeas : Measurable fun p : ℝ × ℝ => u p.1 p.2
  wmeas : Measurable w
  wnn : ∀ t, 0 ≤ w t
  map : ∀ t, t ≠ 0 → ∀ H : ℝ → ENNReal, Measurable H → ∫⁻ y, H (op t y) = ∫⁻ x, ENNReal.ofReal (w t) * H x
  inv : ∀ t, t ≠ 0 → ∀ y, u (op t y) t = y
  qmp : ∀ x, x ≠ 0 → Measure.QuasiMeasurePreserving (u x) volume volume

theorem ae_ne_real (a : ℝ) : ∀ᵐ x : ℝ, x ≠ a := by simp [ae_iff]

theorem qmp_mul {x : ℝ} (hx : x ≠ 0) : Measure.QuasiMeasurePreserving (fun t : ℝ => x * t) volume volume := by
  refine ⟨measurable_const_mul x, ?_⟩
  rw [Real.map_volume_mul_left hx]
  exact Measure.smul_absolutelyContinuous

theorem qmp_div {x : ℝ} (hx : x ≠ 0) : Measure.QuasiMeasurePreserving (fun t : ℝ => x / t) volume volume := by
  have hm : Measurable fun t : ℝ => x / t := measurable_const.div measurable_id
  refine ⟨hm, Measure.AbsolutelyContinuous.mk fun N hN h0 => ?_⟩
  rw [Measure.map_apply hm hN]
  have h1 : volume ((fun y : ℝ => x / y) '' (N \ {0})) = 0 := by
    refine addHaar_image_eq_zero_of_differentiableOn_of_addHaar_eq_zero volume ?_ (measure_mono_null diff_subset h0)
    intro y hy
    have hy0 : y ≠ 0 := hy.2
    have : DifferentiableAt ℝ (fun y : ℝ => x / y) y := by fun_prop (disch := assumption)
    exact this.differentiableWithinAt
  refine measure_mono_null (t := (fun y : ℝ => x / y) '' (N \ {0}) ∪ {0}) ?_ (by rw [measure_union_null_iff]; exact ⟨h1, by simp⟩)
  intro t ht
  by_cases h : t = 0
  · exact .inr h
  · refine .inl ⟨x / t, ⟨ht, ?_⟩, ?_⟩
    · simp [hx, h]
    · field_simp

theorem map_mul {t : ℝ} (ht : t ≠ 0) {H : ℝ → ENNReal} (hH : Measurable H) :
    ∫⁻ y, H (t * y) = ∫⁻ x, ENNReal.ofReal |t⁻¹| * H x := by
  rw [← lintegral_map hH (measurable_const_mul t), Real.map_volume_mul_left ht, lintegral_smul_measure,
    lintegral_const_mul _ hH, smul_eq_mul]

/-- products: the first variable is fixed -/
theorem fibreMul : Fibre (· * ·) (fun x t => x / t) (fun t => |t|⁻¹) where
  meas := measurable_fst.mul measurable_snd
  umeas := measurable_fst.div measurable_snd
  wmeas := by fun_prop
  wnn t := inv_nonneg.2 (abs_nonneg t)
  map t ht H hH := by rw [← abs_inv]; exact map_mul ht hH
  inv t ht y := by field_simp
  qmp x hx := qmp_div hx

/-- quotients: the second variable is fixed -/
theorem fibreDiv : Fibre (fun t y => y / t) (fun x t => x * t) (fun t => |t|) where
  meas := measurable_snd.div measurable_fst
  umeas := measurable_fst.mul measurable_snd
  wmeas := by fun_prop
  wnn t := abs_nonneg t
  map t ht H hH := by
    have := map_mul (inv_ne_zero ht) hH
    rw [inv_inv] at this
    rw [← this]
    simp only [div_eq_inv_mul]
  inv t ht y := by field_simp
  qmp x hx := qmp_mul hx

variable {op u : ℝ → ℝ → ℝ} {w : ℝ → ℝ}

theorem fibre_lintegral (h : Fibre op u w) {F G : ℝ → ENNReal} (hF : Measurable F) (hG : Measurable G)
    [SFinite (volume.withDensity F)] [SFinite (volume.withDensity G)] :
    opLaw op (volume.withDensity F) (volume.withDensity G) =
      volume.withDensity fun x => ∫⁻ t, F t * (ENNReal.ofReal (w t) * G (u x t)) := by
  ext A hA
  have hS := h.meas hA
  have m2 : Measurable fun p : ℝ × ℝ => G (u p.1 p.2) := hG.comp h.umeas
  have m3 : Measurable fun p : ℝ × ℝ => F p.2 * (ENNReal.ofReal (w p.2) * G (u p.1 p.2)) :=
    (hF.comp measurable_snd).mul ((h.wmeas.ennreal_ofReal.comp measurable_snd).mul m2)
  rw [opLaw, Measure.map_apply h.meas hA, Measure.prod_apply hS, withDensity_apply _ hA,
    lintegral_withDensity_eq_lintegral_mul _ hF (measurable_measure_prodMk_left hS), ← lintegral_indicator hA]
  have e : ∀ x, A.indicator (fun x => ∫⁻ t, F t * (ENNReal.ofReal (w t) * G (u x t))) x =
      ∫⁻ t, A.indicator (fun x => F t * (ENNReal.ofReal (w t) * G (u x t))) x := by
    intro x
    by_cases hx : x ∈ A
    · simp only [indicator_of_mem hx]
    · simp only [indicator_of_notMem hx, lintegral_zero]
  have m4 : Measurable fun p : ℝ × ℝ => A.indicator (fun x => F p.2 * (ENNReal.ofReal (w p.2) * G (u x p.2))) p.1 := by
    have : (fun p : ℝ × ℝ => A.indicator (fun x => F p.2 * (ENNReal.ofReal (w p.2) * G (u x p.2))) p.1) =
        (Prod.fst ⁻¹' A).indicator fun p : ℝ × ℝ => F p.2 * (ENNReal.ofReal (w p.2) * G (u p.1 p.2)) := by
      ext p; rfl
    rw [this]
    exact m3.indicator (measurable_fst hA)
  simp only [e]
  rw [lintegral_lintegral_swap m4.aemeasurable]
  refine lintegral_congr_ae ?_
  filter_upwards [ae_ne_real 0] with t ht
  rw [Pi.mul_apply, withDensity_apply _ (measurable_prodMk_left hS), ← lintegral_indicator (measurable_prodMk_left hS)]
  have mg : Measurable fun x => G (u x t) := hG.comp (h.umeas.comp measurable_prodMk_right)
  have e2 := h.map t ht (A.indicator fun x => G (u x t)) (mg.indicator hA)
  have e3 : (fun y => (Prod.mk t ⁻¹' ((fun p : ℝ × ℝ => op p.1 p.2) ⁻¹' A)).indicator G y) =
      fun y => A.indicator (fun x => G (u x t)) (op t y) := by
    ext y
    by_cases hy : op t y ∈ A
    · rw [indicator_of_mem (by exact hy), indicator_of_mem hy, h.inv t ht y]
    · rw [indicator_of_notMem (by exact hy), indicator_of_notMem hy]
  rw [e3, e2, ← lintegral_const_mul _ ((mg.indicator hA).const_mul _)]
  refine lintegral_congr fun x => ?_
  by_cases hx : x ∈ A
  · simp only [indicator_of_mem hx]
  · simp only [indicator_of_notMem hx, mul_zero]

/-- the density of `op X Y` at `x`, `X` with density `f`, `Y` with density `g` -/
noncomputable def fibreK (u : ℝ → ℝ → ℝ) (w f g : ℝ → ℝ) (x : ℝ) : ℝ := ∫ t, f t * (w t * g (u x t))

theorem fibre_dens (h : Fibre op u w) {f g : ℝ → ℝ} (hf : Integrable f) (hg : Integrable g) (hf0 : ∀ᵐ x, 0 ≤ f x)
    (hg0 : ∀ᵐ x, 0 ≤ g x) :
    (∀ᵐ x, Integrable fun t => f t * (w t * g (u x t))) ∧ (∀ᵐ x, 0 ≤ fibreK u w f g x) ∧ Integrable (fibreK u w f g) ∧
    opLaw op (volume.withDensity fun x => ENNReal.ofReal (f x)) (volume.withDensity fun x => ENNReal.ofReal (g x)) =
      volume.withDensity fun x => ENNReal.ofReal (fibreK u w f g x) := by
  obtain ⟨F, hF, eF⟩ := hf.aestronglyMeasurable.aemeasurable.ennreal_ofReal
  obtain ⟨G, hG, eG⟩ := hg.aestronglyMeasurable.aemeasurable.ennreal_ofReal
  have finF : ∫⁻ x, F x ≠ ⊤ := by
    rw [← lintegral_congr_ae eF, ← ofReal_integral_eq_lintegral_ofReal hf hf0]
    exact ENNReal.ofReal_ne_top
  have finG : ∫⁻ x, G x ≠ ⊤ := by
    rw [← lintegral_congr_ae eG, ← ofReal_integral_eq_lintegral_ofReal hg hg0]
    exact ENNReal.ofReal_ne_top
  have := isFiniteMeasure_withDensity finF
  have := isFiniteMeasure_withDensity finG
  have m3 : Measurable fun p : ℝ × ℝ => F p.2 * (ENNReal.ofReal (w p.2) * G (u p.1 p.2)) :=
    (hF.comp measurable_snd).mul ((h.wmeas.ennreal_ofReal.comp measurable_snd).mul (hG.comp h.umeas))
  obtain ⟨K, hK⟩ : ∃ K : ℝ → ENNReal, K = fun x => ∫⁻ t, F t * (ENNReal.ofReal (w t) * G (u x t)) := ⟨_, rfl⟩
  have mK : Measurable K := by rw [hK]; exact m3.lintegral_prod_right
  have hlaw := fibre_lintegral h hF hG
  rw [← hK] at hlaw
  have finK : ∫⁻ x, K x ≠ ⊤ := by
    have e := congrArg (fun μ => μ univ) hlaw
    simp only [opLaw] at e
    rw [Measure.map_apply h.meas MeasurableSet.univ, preimage_univ, ← univ_prod_univ, Measure.prod_prod,
      withDensity_apply _ MeasurableSet.univ, withDensity_apply _ MeasurableSet.univ, withDensity_apply _ MeasurableSet.univ,
      Measure.restrict_univ] at e
    rw [← e]
    exact ENNReal.mul_ne_top finF finG
  -- the integrand for fixed x
  have key : ∀ x, x ≠ 0 → (∀ᵐ t, ENNReal.ofReal (f t * (w t * g (u x t))) = F t * (ENNReal.ofReal (w t) * G (u x t))) ∧
      (∀ᵐ t, 0 ≤ f t * (w t * g (u x t))) ∧ AEStronglyMeasurable (fun t => f t * (w t * g (u x t))) := by
    intro x hx
    have q := h.qmp x hx
    refine ⟨?_, ?_, ?_⟩
    · filter_upwards [eF, hf0, q.ae eG] with t h1 h2 h3
      rw [ENNReal.ofReal_mul h2, ENNReal.ofReal_mul (h.wnn t), ← h1, ← h3]
    · filter_upwards [hf0, q.ae hg0] with t h1 h2
      exact mul_nonneg h1 (mul_nonneg (h.wnn t) h2)
    · exact hf.aestronglyMeasurable.mul (h.wmeas.aestronglyMeasurable.mul (hg.aestronglyMeasurable.comp_quasiMeasurePreserving q))
  have hint : ∀ᵐ x, Integrable fun t => f t * (w t * g (u x t)) := by
    filter_upwards [ae_ne_real 0, ae_lt_top mK finK] with x hx hfin
    obtain ⟨k1, k2, k3⟩ := key x hx
    refine ⟨k3, ?_⟩
    rw [hasFiniteIntegral_iff_ofReal k2, lintegral_congr_ae k1]
    rw [hK] at hfin
    exact hfin
  have hKe : ∀ᵐ x, ENNReal.ofReal (fibreK u w f g x) = K x := by
    filter_upwards [ae_ne_real 0, hint] with x hx hi
    obtain ⟨k1, k2, k3⟩ := key x hx
    rw [fibreK, ofReal_integral_eq_lintegral_ofReal hi k2, lintegral_congr_ae k1, hK]
  have hnn : ∀ᵐ x, 0 ≤ fibreK u w f g x := by
    filter_upwards [ae_ne_real 0] with x hx
    exact integral_nonneg_of_ae (key x hx).2.1
  refine ⟨hint, hnn, ?_, ?_⟩
  · refine (integrable_toReal_of_lintegral_ne_top mK.aemeasurable finK).congr ?_
    filter_upwards [hKe, hnn] with x h1 h2
    rw [← h1, ENNReal.toReal_ofReal h2]
  · rw [withDensity_congr_ae eF, withDensity_congr_ae eG, hlaw]
    exact withDensity_congr_ae (by filter_upwards [hKe] with x hx using hx.symm)

end Conv
end Pacal
