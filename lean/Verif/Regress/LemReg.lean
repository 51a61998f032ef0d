import Verif.Regress.Spec
import Verif.Depend.LemCov
import Mathlib.MeasureTheory.Integral.Prod

/-!
Helper lemmas: expectations from a joint density, one variable at a time.
-/

open MeasureTheory ProbabilityTheory Set

namespace Pacal.Regress

open Pacal.Depend

variable {Ω : Type*} [MeasurableSpace Ω] {P : Measure Ω} [IsProbabilityMeasure P] {X Y : Ω → ℝ} {q : ℝ → ℝ → ℝ}

theorem density_integrable (h : HasDensity q P X Y) {F : ℝ → ℝ → ℝ} (hF : Measurable fun z : ℝ × ℝ => F z.1 z.2)
    (hi : Integrable (fun ω => F (X ω) (Y ω)) P) : Integrable (fun z : ℝ × ℝ => F z.1 z.2 * q z.1 z.2) (volume.prod volume) := by
  have hm : Measurable fun ω => (X ω, Y ω) := h.meas.1.prodMk h.meas.2
  have hd : Measurable fun z : ℝ × ℝ => ENNReal.ofReal (q z.1 z.2) := h.pmeas.ennreal_ofReal
  have hi' : Integrable (fun z : ℝ × ℝ => F z.1 z.2) (P.map fun ω => (X ω, Y ω)) :=
    (integrable_map_measure hF.aestronglyMeasurable hm.aemeasurable).2 hi
  rw [h.law, integrable_withDensity_iff_integrable_smul' hd (by simp)] at hi'
  refine hi'.congr (ae_of_all _ fun z => ?_)
  simp only [ENNReal.toReal_ofReal (h.nonneg z.1 z.2), smul_eq_mul, mul_comm]

/-- expectations over the values of the first variable in a set -/
theorem expect (h : HasDensity q P X Y) {F : ℝ → ℝ → ℝ} (hF : Measurable fun z : ℝ × ℝ => F z.1 z.2)
    (hi : Integrable (fun ω => F (X ω) (Y ω)) P) {B : Set ℝ} (hB : MeasurableSet B) :
    ∫ ω in X ⁻¹' B, F (X ω) (Y ω) ∂P = ∫ x in B, ∫ y, F x y * q x y := by
  have hm : Measurable fun ω => (X ω, Y ω) := h.meas.1.prodMk h.meas.2
  have hS : MeasurableSet (B ×ˢ (univ : Set ℝ)) := hB.prod MeasurableSet.univ
  have hd : Measurable fun z : ℝ × ℝ => ENNReal.ofReal (q z.1 z.2) := h.pmeas.ennreal_ofReal
  have e0 : X ⁻¹' B = (fun ω => (X ω, Y ω)) ⁻¹' (B ×ˢ (univ : Set ℝ)) := by
    ext ω; simp
  have e1 : ∫ ω in X ⁻¹' B, F (X ω) (Y ω) ∂P = ∫ z in B ×ˢ (univ : Set ℝ), F z.1 z.2 * q z.1 z.2 := by
    rw [e0, ← setIntegral_map (f := fun z : ℝ × ℝ => F z.1 z.2) hS hF.aestronglyMeasurable hm.aemeasurable, h.law,
      setIntegral_withDensity_eq_setIntegral_toReal_smul hd (by simp) _ hS]
    refine setIntegral_congr_fun hS fun z _ => ?_
    simp only [ENNReal.toReal_ofReal (h.nonneg z.1 z.2), smul_eq_mul, mul_comm]
  have hint := density_integrable h hF hi
  rw [e1, Measure.volume_eq_prod, setIntegral_prod (fun z : ℝ × ℝ => F z.1 z.2 * q z.1 z.2) hint.integrableOn]
  simp only [Measure.restrict_univ]

/-- the density of the first variable -/
noncomputable def mass (q : ℝ → ℝ → ℝ) (x : ℝ) : ℝ := ∫ y, q x y

theorem mass_measurable (h : HasDensity q P X Y) : Measurable (mass q) := by
  have : StronglyMeasurable fun x => ∫ y, q x y := StronglyMeasurable.integral_prod_right h.pmeas.stronglyMeasurable
  exact this.measurable

theorem mass_nonneg (h : HasDensity q P X Y) (x : ℝ) : 0 ≤ mass q x := integral_nonneg fun y => h.nonneg x y

theorem section_integrable (h : HasDensity q P X Y) : ∀ᵐ x, Integrable (q x) := by
  have := density_integrable h (F := fun _ _ => 1) measurable_const (integrable_const _)
  simp only [one_mul] at this
  exact this.prod_right_ae

theorem prob_eq (h : HasDensity q P X Y) {B : Set ℝ} (hB : MeasurableSet B) : P.real (X ⁻¹' B) = ∫ x in B, mass q x := by
  have := expect h (F := fun _ _ => 1) measurable_const (integrable_const _) hB
  simp only [one_mul] at this
  rw [setIntegral_const, smul_eq_mul, mul_one] at this
  exact this

theorem mass_pos (h : HasDensity q P X Y) : ∀ᵐ ω ∂P, mass q (X ω) ≠ 0 := by
  have hB : MeasurableSet {x | mass q x = 0} := mass_measurable h (measurableSet_singleton 0)
  have e := prob_eq h hB
  rw [setIntegral_congr_fun hB (g := fun _ => (0 : ℝ)) fun x hx => hx, integral_zero] at e
  have := (measureReal_eq_zero_iff (μ := P) (measure_ne_top _ _)).1 e
  exact measure_eq_zero_iff_ae_notMem.1 this

/-- where the density of the first variable is 0, the joint density is 0 -/
theorem section_zero (h : HasDensity q P X Y) {x : ℝ} (hi : Integrable (q x)) (h0 : mass q x = 0) : q x =ᵐ[volume] 0 :=
  (integral_eq_zero_iff_of_nonneg (fun y => h.nonneg x y) hi).1 h0

/-- events from the sections -/
theorem prob_event (h : HasDensity q P X Y) {E : Set (ℝ × ℝ)} (hE : MeasurableSet E) {B : Set ℝ} (hB : MeasurableSet B) {p : ℝ}
    (hs : ∀ x, Integrable (q x) → mass q x ≠ 0 → ∫ y, E.indicator 1 (x, y) * q x y = p * mass q x) :
    P.real {ω | X ω ∈ B ∧ (X ω, Y ω) ∈ E} = p * P.real (X ⁻¹' B) := by
  have hm : Measurable fun ω => (X ω, Y ω) := h.meas.1.prodMk h.meas.2
  have hF : Measurable fun z : ℝ × ℝ => E.indicator (1 : ℝ × ℝ → ℝ) (z.1, z.2) := measurable_one.indicator hE
  have hi : Integrable (fun ω => E.indicator (1 : ℝ × ℝ → ℝ) (X ω, Y ω)) P := by
    have : (fun ω => E.indicator (1 : ℝ × ℝ → ℝ) (X ω, Y ω)) = ((fun ω => (X ω, Y ω)) ⁻¹' E).indicator 1 := by
      ext ω
      by_cases hω : (X ω, Y ω) ∈ E <;> simp [hω]
    rw [this]
    exact (integrable_const (1 : ℝ)).indicator (hm hE)
  have e := expect h (F := fun x y => E.indicator 1 (x, y)) hF hi hB
  have e1 : ∫ ω in X ⁻¹' B, E.indicator (1 : ℝ × ℝ → ℝ) (X ω, Y ω) ∂P = P.real {ω | X ω ∈ B ∧ (X ω, Y ω) ∈ E} := by
    have : (fun ω => E.indicator (1 : ℝ × ℝ → ℝ) (X ω, Y ω)) = ((fun ω => (X ω, Y ω)) ⁻¹' E).indicator 1 := by
      ext ω
      by_cases hω : (X ω, Y ω) ∈ E <;> simp [hω]
    rw [this, integral_indicator_one (hm hE), measureReal_restrict_apply (hm hE)]
    congr 1
    ext ω
    exact and_comm
  rw [← e1, e, prob_eq h hB, ← integral_const_mul]
  refine setIntegral_congr_ae hB ?_
  filter_upwards [section_integrable h] with x hx _
  by_cases h0 : mass q x = 0
  · rw [h0, mul_zero]
    refine integral_eq_zero_of_ae ?_
    filter_upwards [section_zero h hx h0] with y hy
    simp [hy]
  · exact hs x hx h0

end Pacal.Regress
