import Verif.Regress.LemReg
import Verif.Depend.LemRank
import Mathlib.MeasureTheory.Integral.IntervalIntegral.FundThmCalculus

/-!
Helper lemmas: quantiles of the sections of a joint density.
-/

open MeasureTheory ProbabilityTheory Set

namespace Pacal.Regress

open Pacal.Depend

variable {Ω : Type*} [MeasurableSpace Ω] {P : Measure Ω} [IsProbabilityMeasure P] {X Y : Ω → ℝ} {q : ℝ → ℝ → ℝ}

/-- the mass of a section up to a point -/
noncomputable def upTo (q : ℝ → ℝ → ℝ) (x y : ℝ) : ℝ := ∫ t in Iic y, q x t

theorem upTo_measurable (h : HasDensity q P X Y) : Measurable fun z : ℝ × ℝ => upTo q z.1 z.2 := by
  have hS : MeasurableSet {w : (ℝ × ℝ) × ℝ | w.2 ≤ w.1.2} := measurableSet_le measurable_snd (measurable_snd.comp measurable_fst)
  have hf : Measurable fun w : (ℝ × ℝ) × ℝ => q w.1.1 w.2 :=
    h.pmeas.comp ((measurable_fst.comp measurable_fst).prodMk measurable_snd)
  have hm : Measurable ({w : (ℝ × ℝ) × ℝ | w.2 ≤ w.1.2}.indicator fun w : (ℝ × ℝ) × ℝ => q w.1.1 w.2) := hf.indicator hS
  have : StronglyMeasurable fun z : ℝ × ℝ => ∫ t, {w : (ℝ × ℝ) × ℝ | w.2 ≤ w.1.2}.indicator (fun w : (ℝ × ℝ) × ℝ => q w.1.1 w.2) (z, t) :=
    StronglyMeasurable.integral_prod_right (f := fun z : ℝ × ℝ => fun t : ℝ =>
      {w : (ℝ × ℝ) × ℝ | w.2 ≤ w.1.2}.indicator (fun w : (ℝ × ℝ) × ℝ => q w.1.1 w.2) (z, t)) hm.stronglyMeasurable
  suffices e : (fun z : ℝ × ℝ => upTo q z.1 z.2) = fun z : ℝ × ℝ => ∫ t, {w : (ℝ × ℝ) × ℝ | w.2 ≤ w.1.2}.indicator
      (fun w : (ℝ × ℝ) × ℝ => q w.1.1 w.2) (z, t) by
    rw [e]; exact this.measurable
  ext z
  rw [upTo, ← integral_indicator measurableSet_Iic]
  refine integral_congr_ae (ae_of_all _ fun t => ?_)
  by_cases ht : t ≤ z.2 <;> simp [indicator, ht]

/-- the section as a probability law -/
noncomputable def secLaw (q : ℝ → ℝ → ℝ) (x : ℝ) : Measure ℝ := volume.withDensity fun y => ENNReal.ofReal (q x y / mass q x)

theorem secLaw_prob (h : HasDensity q P X Y) {x : ℝ} (hi : Integrable (q x)) (h0 : mass q x ≠ 0) :
    IsProbabilityMeasure (secLaw q x) := by
  refine ⟨?_⟩
  rw [secLaw, withDensity_apply _ MeasurableSet.univ, Measure.restrict_univ, ← ofReal_integral_eq_lintegral_ofReal (hi.div_const _)
    (ae_of_all _ fun y => div_nonneg (h.nonneg x y) (mass_nonneg h x)), integral_div]
  change ENNReal.ofReal (mass q x / mass q x) = 1
  rw [div_self h0, ENNReal.ofReal_one]

theorem secLaw_apply (h : HasDensity q P X Y) {x : ℝ} (hi : Integrable (q x)) {S : Set ℝ} (hS : MeasurableSet S) :
    (secLaw q x).real S = (∫ y in S, q x y) / mass q x := by
  rw [Measure.real, secLaw, withDensity_apply _ hS, ← ofReal_integral_eq_lintegral_ofReal (hi.div_const _).integrableOn
    (ae_of_all _ fun y => div_nonneg (h.nonneg x y) (mass_nonneg h x)), integral_div, ENNReal.toReal_ofReal]
  exact div_nonneg (integral_nonneg fun y => h.nonneg x y) (mass_nonneg h x)

theorem secLaw_cdf (h : HasDensity q P X Y) {x : ℝ} (hi : Integrable (q x)) (h0 : mass q x ≠ 0) (y : ℝ) :
    cdf (secLaw q x) y = upTo q x y / mass q x := by
  have := secLaw_prob h hi h0
  rw [cdf_eq_real, secLaw_apply h hi measurableSet_Iic]
  rfl

theorem upTo_cont {x : ℝ} (hi : Integrable (q x)) : Continuous (upTo q x) := by
  have e : upTo q x = fun y => upTo q x 0 + ∫ t in (0 : ℝ)..y, q x t := by
    ext y
    rw [upTo, upTo, ← intervalIntegral.integral_Iic_sub_Iic hi.integrableOn hi.integrableOn]
    ring
  rw [e]
  exact continuous_const.add (intervalIntegral.continuous_primitive (fun a b => hi.intervalIntegrable) 0)

/-- the part of the section whose mass up to it is at most, or is, a given number -/
theorem section_quantile (h : HasDensity q P X Y) {x : ℝ} (hi : Integrable (q x)) (h0 : mass q x ≠ 0) {p : ℝ} (hp : 0 ≤ p) (hp1 : p ≤ 1) :
    (∫ y in {y | upTo q x y ≤ p * mass q x}, q x y = p * mass q x) ∧ ∫ y in {y | upTo q x y = p * mass q x}, q x y = 0 := by
  have hP := secLaw_prob h hi h0
  have hn : 0 < mass q x := (mass_nonneg h x).lt_of_ne (Ne.symm h0)
  have hid : (secLaw q x).map id = secLaw q x := Measure.map_id
  have hc : Continuous (cdf ((secLaw q x).map id)) := by
    rw [hid, show ⇑(cdf (secLaw q x)) = fun y => upTo q x y / mass q x from funext (secLaw_cdf h hi h0)]
    exact (upTo_cont hi).div_const _
  have hl := rank_law (P := secLaw q x) measurable_id hc
  have hr : rank (secLaw q x) id = fun y => upTo q x y / mass q x := by
    ext y
    rw [rank, hid]
    exact secLaw_cdf h hi h0 y
  have hrm := rank_measurable (P := secLaw q x) measurable_id
  have hum : Measurable (upTo q x) := (upTo_cont hi).measurable
  constructor
  · have e : (secLaw q x).real {y | upTo q x y ≤ p * mass q x} = p := by
      have : {y | upTo q x y ≤ p * mass q x} = rank (secLaw q x) id ⁻¹' Iic p := by
        rw [hr]
        ext y
        exact (div_le_iff₀ hn).symm
      rw [this, ← map_measureReal_apply hrm measurableSet_Iic, hl, measureReal_restrict_apply measurableSet_Iic]
      have : (Iic p ∩ Icc 0 1 : Set ℝ) = Icc 0 p := by
        ext t
        exact ⟨fun h => ⟨h.2.1, h.1⟩, fun h => ⟨h.2, h.1, h.2.trans hp1⟩⟩
      rw [this, Real.volume_real_Icc_of_le hp, sub_zero]
    rw [secLaw_apply h hi (measurableSet_le hum measurable_const)] at e
    rw [div_eq_iff h0] at e
    exact e
  · have e : (secLaw q x).real {y | upTo q x y = p * mass q x} = 0 := by
      have : {y | upTo q x y = p * mass q x} = rank (secLaw q x) id ⁻¹' {p} := by
        rw [hr]
        ext y
        exact (div_eq_iff h0).symm
      rw [this, ← map_measureReal_apply hrm (measurableSet_singleton p), hl]
      simp [Measure.real]
    rw [secLaw_apply h hi (measurableSet_eq_fun hum measurable_const), div_eq_zero_iff] at e
    exact e.resolve_right h0

/-- the quantiles of the sections cut the law -/
theorem quantile_law (h : HasDensity q P X Y) {p : ℝ} (hp : 0 ≤ p) (hp1 : p ≤ 1) {r : ℝ → ℝ}
    (hr : ∀ᵐ ω ∂P, upTo q (X ω) (r (X ω)) = p * mass q (X ω)) (hi : ∀ᵐ ω ∂P, Integrable (q (X ω))) {B : Set ℝ} (hB : MeasurableSet B) :
    P.real {ω | X ω ∈ B ∧ Y ω ≤ r (X ω)} = p * P.real (X ⁻¹' B) := by
  have hu := upTo_measurable h
  have hn : Measurable fun z : ℝ × ℝ => p * mass q z.1 := ((mass_measurable h).comp measurable_fst).const_mul p
  have hE : MeasurableSet {z : ℝ × ℝ | upTo q z.1 z.2 ≤ p * mass q z.1} := measurableSet_le hu hn
  have hE0 : MeasurableSet {z : ℝ × ℝ | upTo q z.1 z.2 = p * mass q z.1} := measurableSet_eq_fun hu hn
  have ind : ∀ (E : Set (ℝ × ℝ)) (x : ℝ), MeasurableSet E → ∫ y, E.indicator (1 : ℝ × ℝ → ℝ) (x, y) * q x y =
      ∫ y in {y | (x, y) ∈ E}, q x y := by
    intro E x hE
    have hS : MeasurableSet {y | (x, y) ∈ E} := measurable_prodMk_left hE
    rw [← integral_indicator hS]
    refine integral_congr_ae (ae_of_all _ fun y => ?_)
    by_cases hy : (x, y) ∈ E <;> simp [indicator, hy]
  have h1 := prob_event h hE hB (p := p) fun x hx h0 => by
    rw [ind _ _ hE]
    exact (section_quantile h hx h0 hp hp1).1
  have h2 := prob_event h hE0 MeasurableSet.univ (p := 0) fun x hx h0 => by
    rw [ind _ _ hE0, zero_mul]
    exact (section_quantile h hx h0 hp hp1).2
  rw [zero_mul] at h2
  have h2' : ∀ᵐ ω ∂P, ¬upTo q (X ω) (Y ω) = p * mass q (X ω) := by
    have := measure_eq_zero_iff_ae_notMem.1 ((measureReal_eq_zero_iff (μ := P) (measure_ne_top _ _)).1 h2)
    filter_upwards [this] with ω hω he
    exact hω ⟨mem_univ _, he⟩
  rw [← h1]
  refine measureReal_congr ?_
  filter_upwards [h2', hr, hi] with ω hω hrω hiω
  refine propext (and_congr Iff.rfl ?_)
  have mono : ∀ {s t : ℝ}, s ≤ t → upTo q (X ω) s ≤ upTo q (X ω) t := fun hst =>
    setIntegral_mono_set hiω.integrableOn (ae_of_all _ fun y => h.nonneg _ y) (Iic_subset_Iic.2 hst).eventuallyLE
  constructor
  · intro hle
    rw [← hrω]
    exact mono hle
  · intro (hle : upTo q (X ω) (Y ω) ≤ p * mass q (X ω))
    by_contra hn
    exact hω (le_antisymm hle (hrω ▸ mono (not_le.1 hn).le))

end Pacal.Regress
