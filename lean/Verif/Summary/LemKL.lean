import Verif.Summary.Spec
import Mathlib.InformationTheory.KullbackLeibler.Basic
import Mathlib.MeasureTheory.Measure.Lebesgue.Basic

/-! The log-likelihood ratio of two measures that consist of a density and of point masses at the same points; used for C75. -/

namespace Pacal.Summary
open MeasureTheory Set InformationTheory

open Classical in
/-- the ratio of densities and of masses -/
noncomputable def ratio (φ ψ : ℝ → ℝ) (A : Finset ℝ) (a b : ℝ → ℝ) (x : ℝ) : ℝ := if x ∈ A then a x / b x else φ x / ψ x

variable {φ ψ : ℝ → ℝ} {A : Finset ℝ} {a b : ℝ → ℝ}

theorem ae_notMem (A : Finset ℝ) : ∀ᵐ x : ℝ, x ∉ A := by
  have : volume (A : Set ℝ) = 0 := A.finite_toSet.measure_zero _
  simpa [ae_iff] using this

theorem ratio_ae : ratio φ ψ A a b =ᵐ[volume] fun x => φ x / ψ x := by
  filter_upwards [ae_notMem A] with x hx
  rw [ratio, if_neg hx]

theorem ratio_mem {x : ℝ} (hx : x ∈ A) : ratio φ ψ A a b x = a x / b x := if_pos hx

theorem ratio_meas (hφ : Measurable φ) (hψ : Measurable ψ) : Measurable (ratio φ ψ A a b) := by
  classical
  have : ratio φ ψ A a b = fun x => (∑ y ∈ A, ({y} : Set ℝ).indicator (fun _ => a y / b y) x) +
      ((A : Set ℝ)ᶜ).indicator (fun x => φ x / ψ x) x := by
    funext x
    by_cases hx : x ∈ A
    · rw [ratio_mem hx, Finset.sum_eq_single_of_mem x hx, indicator_of_mem (mem_singleton x),
        indicator_of_notMem (by simpa using hx), add_zero]
      intro y _ hy
      exact indicator_of_notMem (by simpa using hy.symm) _
    · rw [ratio, if_neg hx, Finset.sum_eq_zero, zero_add, indicator_of_mem (by simpa using hx)]
      intro y hy
      refine indicator_of_notMem ?_ _
      rintro rfl
      exact hx hy
  rw [this]
  refine (Finset.measurable_sum _ fun y _ => measurable_const.indicator (measurableSet_singleton y)).add ?_
  exact (hφ.div hψ).indicator A.finite_toSet.measurableSet.compl

theorem mix_null (hψ : Measurable ψ) (hφ : Measurable φ) (h0 : ∀ x, 0 ≤ φ x) (h : mix φ A a ≪ mix ψ A b) :
    ∀ᵐ x : ℝ, ψ x = 0 → φ x = 0 := by
  have hN : MeasurableSet ({x | ψ x = 0} ∩ (A : Set ℝ)ᶜ) :=
    (hψ (measurableSet_singleton 0)).inter A.finite_toSet.measurableSet.compl
  have h1 : mix ψ A b ({x | ψ x = 0} ∩ (A : Set ℝ)ᶜ) = 0 := by
    rw [mix, Measure.add_apply, Measure.finsetSum_apply, Finset.sum_eq_zero, withDensity_apply _ hN, add_zero]
    · rw [setLIntegral_congr_fun hN (g := fun _ => 0)]
      · simp
      · rintro x ⟨hx, -⟩
        have : ψ x = 0 := hx
        simp [this]
    · intro x hx
      simp [Measure.dirac_apply' _ hN, hx]
  have h2 := h h1
  rw [mix, Measure.add_apply, add_eq_zero, withDensity_apply _ hN, setLIntegral_eq_zero_iff hN hφ.ennreal_ofReal] at h2
  filter_upwards [h2.1, ae_notMem A] with x hx hA h3
  exact le_antisymm (ENNReal.ofReal_eq_zero.1 (hx ⟨h3, by simpa using hA⟩)) (h0 x)

theorem mix_withDensity (hφ : Measurable φ) (hψ : Measurable ψ) (p0 : ∀ x, 0 ≤ ψ x) (hb : ∀ x ∈ A, 0 < b x)
    (hn : ∀ᵐ x : ℝ, ψ x = 0 → φ x = 0) :
    (mix ψ A b).withDensity (fun x => ENNReal.ofReal (ratio φ ψ A a b x)) = mix φ A a := by
  have hm : Measurable fun x => ENNReal.ofReal (ratio φ ψ A a b x) := (ratio_meas hφ hψ).ennreal_ofReal
  ext B hB
  rw [withDensity_apply _ hB, ← lintegral_indicator hB, mix, lintegral_add_measure, lintegral_finsetSum_measure, mix,
    Measure.add_apply, Measure.finsetSum_apply]
  congr 1
  · rw [lintegral_withDensity_eq_lintegral_mul _ hψ.ennreal_ofReal (hm.indicator hB), withDensity_apply _ hB,
      ← lintegral_indicator hB]
    refine lintegral_congr_ae ?_
    filter_upwards [hn, ratio_ae (φ := φ) (ψ := ψ) (A := A) (a := a) (b := b)] with x hx hr
    by_cases hxB : x ∈ B
    · rw [Pi.mul_apply, indicator_of_mem hxB, indicator_of_mem hxB, hr, ← ENNReal.ofReal_mul (p0 x)]
      congr 1
      by_cases h : ψ x = 0
      · rw [hx h, h]; simp
      · field_simp
    · rw [Pi.mul_apply, indicator_of_notMem hxB, indicator_of_notMem hxB, mul_zero]
  · refine Finset.sum_congr rfl fun x hx => ?_
    rw [lintegral_smul_measure, lintegral_dirac, Measure.smul_apply, Measure.dirac_apply' _ hB]
    by_cases hxB : x ∈ B
    · rw [indicator_of_mem hxB, indicator_of_mem hxB, ratio_mem hx, smul_eq_mul, smul_eq_mul, ← ENNReal.ofReal_mul (hb x hx).le,
        mul_div_cancel₀ _ (hb x hx).ne', Pi.one_apply, mul_one]
    · rw [indicator_of_notMem hxB, indicator_of_notMem hxB]; simp

theorem mix_llr (hφ : Measurable φ) (hψ : Measurable ψ) (h0 : ∀ x, 0 ≤ φ x) (p0 : ∀ x, 0 ≤ ψ x)
    (ha : ∀ x ∈ A, 0 < a x) (hb : ∀ x ∈ A, 0 < b x)
    [IsFiniteMeasure (mix ψ A b)] (h : mix φ A a ≪ mix ψ A b) :
    llr (mix φ A a) (mix ψ A b) =ᵐ[mix φ A a] fun x => Real.log (ratio φ ψ A a b x) := by
  have hr : ∀ x, 0 ≤ ratio φ ψ A a b x := by
    intro x
    rw [ratio]
    split_ifs with hx
    · exact div_nonneg (ha x hx).le (hb x hx).le
    · exact div_nonneg (h0 x) (p0 x)
  have hm : Measurable fun x => ENNReal.ofReal (ratio φ ψ A a b x) := (ratio_meas hφ hψ).ennreal_ofReal
  have key := (mix ψ A b).rnDeriv_withDensity hm
  rw [mix_withDensity hφ hψ p0 hb (mix_null hψ hφ h0 h)] at key
  filter_upwards [h.ae_le key] with x hx
  rw [llr, hx, ENNReal.toReal_ofReal (hr x)]

theorem mix_kl (hφ : Measurable φ) (hψ : Measurable ψ) (h0 : ∀ x, 0 ≤ φ x) (p0 : ∀ x, 0 ≤ ψ x)
    (ha : ∀ x ∈ A, 0 < a x) (hb : ∀ x ∈ A, 0 < b x)
    [IsFiniteMeasure (mix φ A a)] [IsFiniteMeasure (mix ψ A b)] (h : mix φ A a ≪ mix ψ A b)
    (hi : Integrable (llr (mix φ A a) (mix ψ A b)) (mix φ A a)) (hu : mix φ A a univ = mix ψ A b univ) :
    Integrable (fun x => φ x * Real.log (φ x / ψ x)) volume ∧
    (klDiv (mix φ A a) (mix ψ A b)).toReal = (∫ x, φ x * Real.log (φ x / ψ x)) + ∑ x ∈ A, a x * Real.log (a x / b x) := by
  have hl := mix_llr hφ hψ h0 p0 ha hb h
  have hi' := hi.congr hl
  have e1 : (fun x => (ENNReal.ofReal (φ x)).toReal • Real.log (ratio φ ψ A a b x)) =ᵐ[volume]
      fun x => φ x * Real.log (φ x / ψ x) := by
    filter_upwards [ratio_ae (φ := φ) (ψ := ψ) (A := A) (a := a) (b := b)] with x hx
    rw [hx, ENNReal.toReal_ofReal (h0 x), smul_eq_mul]
  have hs := hi'
  rw [mix, integrable_add_measure] at hs
  refine ⟨((integrable_withDensity_iff_integrable_smul' hφ.ennreal_ofReal (by simp)).1 hs.1).congr e1, ?_⟩
  rw [toReal_klDiv_of_measure_eq h hu, integral_congr_ae hl, mix, integral_add_measure hs.1 hs.2,
    integral_withDensity_eq_integral_toReal_smul hφ.ennreal_ofReal (by simp), integral_congr_ae e1,
    integral_finsetSum_measure (integrable_finsetSum_measure.1 hs.2)]
  congr 1
  refine Finset.sum_congr rfl fun x hx => ?_
  rw [integral_smul_measure, integral_dirac, ratio_mem hx, ENNReal.toReal_ofReal (ha x hx).le, smul_eq_mul]

theorem mix_singleton (φ : ℝ → ℝ) (ha : ∀ x ∈ A, 0 ≤ a x) {x : ℝ} :
    (mix φ A a).real {x} = open Classical in if x ∈ A then a x else 0 := by
  rw [Measure.real, mix, Measure.add_apply, Measure.finsetSum_apply, (withDensity_absolutelyContinuous _ _) (measure_singleton x), zero_add]
  split_ifs with hx
  · rw [Finset.sum_eq_single_of_mem x hx]
    · simp [ENNReal.toReal_ofReal (ha x hx)]
    · intro y _ hy
      simp [hy]
  · rw [Finset.sum_eq_zero]
    · rfl
    · intro y hy
      have : y ≠ x := by rintro rfl; exact hx hy
      simp [this]

theorem mix_unique {A' : Finset ℝ} {a' : ℝ → ℝ} (hφ : Integrable φ volume) (hψ : AEMeasurable ψ volume) (h0 : ∀ᵐ x, 0 ≤ φ x) (p0 : ∀ᵐ x, 0 ≤ ψ x)
    (h : mix φ A a = mix ψ A' a') : φ =ᵐ[volume] ψ := by
  classical
  have hB : MeasurableSet (((A ∪ A' : Finset ℝ) : Set ℝ)ᶜ) := (A ∪ A').finite_toSet.measurableSet.compl
  have key : ∀ (φ : ℝ → ℝ) (C : Finset ℝ) (c : ℝ → ℝ), C ⊆ A ∪ A' → (mix φ C c).restrict (((A ∪ A' : Finset ℝ) : Set ℝ)ᶜ) =
      volume.withDensity (fun x => ENNReal.ofReal (φ x)) := by
    intro φ C c hC
    ext D hD
    rw [Measure.restrict_apply hD, mix, Measure.add_apply, Measure.finsetSum_apply, Finset.sum_eq_zero, add_zero]
    · refine measure_congr ?_
      filter_upwards [(withDensity_absolutelyContinuous _ _).ae_le (ae_notMem (A ∪ A'))] with x hx
      exact propext ⟨fun h => h.1, fun h => ⟨h, by simpa using hx⟩⟩
    · intro x hx
      have : x ∈ A ∪ A' := hC hx
      rw [Measure.smul_apply, Measure.dirac_apply' _ (hD.inter hB), indicator_of_notMem]
      · simp
      · rintro ⟨-, h⟩
        exact h (by simpa using this)
  have e := (key φ A a Finset.subset_union_left).symm.trans ((congrArg _ h).trans (key ψ A' a' Finset.subset_union_right))
  have e' := (withDensity_eq_iff hφ.aestronglyMeasurable.aemeasurable.ennreal_ofReal hψ.ennreal_ofReal (by
    rw [← ofReal_integral_eq_lintegral_ofReal hφ h0]; exact ENNReal.ofReal_ne_top)).1 e
  filter_upwards [e', h0, p0] with x h1 h2 h3
  exact (ENNReal.ofReal_eq_ofReal_iff h2 h3).1 h1

end Pacal.Summary
