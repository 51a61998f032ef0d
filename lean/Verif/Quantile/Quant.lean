import Verif.Quantile.Inverse
import Mathlib.MeasureTheory.Measure.Typeclasses.Probability
import Mathlib.MeasureTheory.Measure.Lebesgue.Basic
import Mathlib.MeasureTheory.Constructions.BorelSpace.Order

/-! Facts about quantiles of a probability measure; nothing here is about the code. -/

namespace Pacal
open MeasureTheory Set

variable {μ : Measure ℝ} {y u v : ℝ} {x z : EReal}

theorem measurableSet_lt_coe (x : EReal) : MeasurableSet {t : ℝ | (t : EReal) < x} :=
  measurable_coe_real_ereal measurableSet_Iio
theorem measurableSet_le_coe (x : EReal) : MeasurableSet {t : ℝ | (t : EReal) ≤ x} :=
  measurable_coe_real_ereal measurableSet_Iic

theorem IsQuantile.le [IsFiniteMeasure μ] (hx : IsQuantile μ u x) (hz : IsQuantile μ v z) (h : u < v) : x ≤ z := by
  by_contra hc
  push Not at hc
  have : μ.real {t : ℝ | (t : EReal) ≤ z} ≤ μ.real {t : ℝ | (t : EReal) < x} :=
    measureReal_mono fun t (ht : (t : EReal) ≤ z) => lt_of_le_of_lt ht hc
  linarith [hx.1, hz.2]

theorem IsQuantile.cover [IsFiniteMeasure μ] (hx : IsQuantile μ u x) (hz : IsQuantile μ v z) :
    v - u ≤ μ.real {t : ℝ | x ≤ t ∧ (t : EReal) ≤ z} := by
  have : μ.real {t : ℝ | (t : EReal) ≤ z} ≤ μ.real {t : ℝ | (t : EReal) < x} + μ.real {t : ℝ | x ≤ t ∧ (t : EReal) ≤ z} := by
    refine le_trans (measureReal_mono fun t (ht : (t : EReal) ≤ z) => ?_) (measureReal_union_le _ _)
    rcases lt_or_ge (t : EReal) x with h | h
    · exact .inl h
    · exact .inr ⟨h, ht⟩
  linarith [hx.1, hz.2]

theorem IsQuantile.unique [IsFiniteMeasure μ] {a : ℝ} (hx : IsQuantile μ y x) (h1 : ∀ b < a, μ.real (Iic b) < y)
    (h2 : ∀ b, a < b → y < μ.real (Iio b)) : x = a := by
  refine le_antisymm ?_ ?_
  · by_contra hc
    push Not at hc
    obtain ⟨b, hb1, hb2⟩ := EReal.lt_iff_exists_real_btwn.1 hc
    have : μ.real (Iio b) ≤ μ.real {t : ℝ | (t : EReal) < x} :=
      measureReal_mono fun t (ht : t < b) => lt_trans (EReal.coe_lt_coe_iff.2 ht) hb2
    linarith [h2 b (EReal.coe_lt_coe_iff.1 hb1), hx.1]
  · by_contra hc
    push Not at hc
    obtain ⟨b, hb1, hb2⟩ := EReal.lt_iff_exists_real_btwn.1 hc
    have : μ.real {t : ℝ | (t : EReal) ≤ x} ≤ μ.real (Iic b) :=
      measureReal_mono fun t (ht : (t : EReal) ≤ x) => EReal.coe_le_coe_iff.1 (ht.trans hb1.le)
    linarith [h1 b (EReal.coe_lt_coe_iff.1 hb2), hx.2]

theorem IsQuantile.finite [IsProbabilityMeasure μ] (hx : IsQuantile μ y x) (h0 : 0 < y) (h1 : y < 1) : ∃ r : ℝ, x = r := by
  induction x with
  | bot =>
    have : {t : ℝ | (t : EReal) ≤ ⊥} = ∅ := by ext t; simp
    have h := hx.2
    rw [this] at h
    simp at h; linarith
  | top =>
    have : {t : ℝ | (t : EReal) < ⊤} = univ := by ext t; simp [EReal.coe_lt_top]
    have h := hx.1
    rw [this, probReal_univ] at h
    linarith
  | coe r => exact ⟨r, rfl⟩

/-- inverse transform sampling: quantiles of a uniform random level have the distribution `μ` -/
theorem map_quantile [IsProbabilityMeasure μ] {Q : ℝ → ℝ} (hQ : ∀ u ∈ Ioo (0 : ℝ) 1, IsQuantile μ u (Q u : EReal)) :
    AEMeasurable Q (volume.restrict (Ioo 0 1)) ∧ (volume.restrict (Ioo 0 1)).map Q = μ := by
  have hmono : MonotoneOn Q (Ioo 0 1) := by
    intro u hu v hv huv
    rcases huv.eq_or_lt with rfl | huv
    · exact le_rfl
    · exact EReal.coe_le_coe_iff.1 ((hQ u hu).le (hQ v hv) huv)
  have hm : AEMeasurable Q (volume.restrict (Ioo 0 1)) := aemeasurable_restrict_of_monotoneOn measurableSet_Ioo hmono
  refine ⟨hm, ?_⟩
  have : IsFiniteMeasure ((volume.restrict (Ioo (0 : ℝ) 1)).map Q) := inferInstance
  refine Measure.ext_of_Iic _ _ fun x => ?_
  rw [Measure.map_apply_of_aemeasurable hm measurableSet_Iic]
  have hF0 : 0 ≤ μ.real (Iic x) := measureReal_nonneg
  have hF1 : μ.real (Iic x) ≤ 1 := measureReal_le_one
  rw [← ofReal_measureReal (μ := μ) (s := Iic x)]
  refine le_antisymm ?_ ?_
  · rw [Measure.restrict_apply₀' measurableSet_Ioo.nullMeasurableSet]
    refine le_trans (measure_mono (t := Icc 0 (μ.real (Iic x))) ?_) (by rw [Real.volume_Icc, sub_zero])
    rintro u ⟨hu, hu'⟩
    refine ⟨hu'.1.le, (Quantile.isQuantile_coe.1 (hQ u hu')).2.trans (measureReal_mono (Iic_subset_Iic.2 hu))⟩
  · rw [Measure.restrict_apply₀' measurableSet_Ioo.nullMeasurableSet]
    refine le_trans (by rw [Real.volume_Ioo, sub_zero]) (measure_mono (s := Ioo 0 (μ.real (Iic x))) ?_)
    rintro u ⟨hu, hu'⟩
    have h01 : u ∈ Ioo (0 : ℝ) 1 := ⟨hu, hu'.trans_le hF1⟩
    refine ⟨?_, h01⟩
    show Q u ≤ x
    by_contra hc
    push Not at hc
    have : μ.real (Iic x) ≤ μ.real (Iio (Q u)) := measureReal_mono fun t (ht : t ≤ x) => lt_of_le_of_lt ht hc
    linarith [(Quantile.isQuantile_coe.1 (hQ u h01)).1]

end Pacal
