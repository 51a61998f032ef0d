import Verif.Depend.LemCov
import Mathlib.Topology.Order.IntermediateValue
import Mathlib.Analysis.SpecialFunctions.Integrals.Basic

/-!
Helper lemmas: ranks of continuous variables, and the formulas of Spearman and Kendall.
-/

open MeasureTheory ProbabilityTheory Set

namespace Pacal.Depend

variable {Ω : Type*} [MeasurableSpace Ω] {P : Measure Ω} [IsProbabilityMeasure P] {X Y : Ω → ℝ}

theorem cdf_map_apply (hX : Measurable X) (x : ℝ) : cdf (P.map X) x = P.real {ω | X ω ≤ x} := by
  have := Measure.isProbabilityMeasure_map (μ := P) hX.aemeasurable
  rw [cdf_eq_real, map_measureReal_apply hX measurableSet_Iic]
  rfl

theorem rank_measurable (hX : Measurable X) : Measurable (rank P X) :=
  (monotone_cdf (P.map X)).measurable.comp hX

theorem rank_mem (hX : Measurable X) (ω : Ω) : rank P X ω ∈ Icc (0 : ℝ) 1 :=
  ⟨cdf_nonneg _ _, cdf_le_one _ _⟩

/-- below a level the ranks are those of the values up to a quantile -/
theorem exists_quantile (hX : Measurable X) (hc : Continuous (cdf (P.map X))) {u : ℝ} (h0 : 0 < u) (h1 : u < 1) :
    ∃ x, cdf (P.map X) x = u ∧ ∀ ω, rank P X ω ≤ u ↔ X ω ≤ x := by
  have := Measure.isProbabilityMeasure_map (μ := P) hX.aemeasurable
  obtain ⟨a, ha⟩ := ((tendsto_cdf_atBot (P.map X)).eventually_le_const h0).exists
  obtain ⟨b, hb⟩ := ((tendsto_cdf_atTop (P.map X)).eventually_const_lt h1).exists
  obtain ⟨y, hy⟩ := mem_range_of_exists_le_of_exists_ge hc ⟨a, ha⟩ ⟨b, hb.le⟩
  have hS : IsClosed {x | cdf (P.map X) x ≤ u} := isClosed_le hc continuous_const
  have hne : {x | cdf (P.map X) x ≤ u}.Nonempty := ⟨a, ha⟩
  have hbd : BddAbove {x | cdf (P.map X) x ≤ u} := ⟨b, fun x hx => by
    by_contra h
    exact absurd (((monotone_cdf (P.map X)) (not_le.1 h).le).trans hx) (not_le.2 hb)⟩
  have hmem : cdf (P.map X) (sSup {x | cdf (P.map X) x ≤ u}) ≤ u := hS.csSup_mem hne hbd
  have heq : cdf (P.map X) (sSup {x | cdf (P.map X) x ≤ u}) = u :=
    le_antisymm hmem (hy.symm.le.trans (monotone_cdf _ (le_csSup hbd hy.le)))
  exact ⟨_, heq, fun ω => ⟨fun h => le_csSup hbd h, fun h => (monotone_cdf _ h).trans heq.le⟩⟩

theorem rank_real (hX : Measurable X) (hc : Continuous (cdf (P.map X))) {u : ℝ} (h0 : 0 < u) (h1 : u < 1) :
    P.real {ω | rank P X ω ≤ u} = u := by
  obtain ⟨x, hx, hr⟩ := exists_quantile hX hc h0 h1
  rw [show {ω | rank P X ω ≤ u} = {ω | X ω ≤ x} from Set.ext fun ω => hr ω, ← cdf_map_apply hX, hx]

theorem rank_joint {C : ℝ → ℝ → ℝ} (h : Joins C P X Y) {u v : ℝ} (hu : u ∈ Ioo (0 : ℝ) 1) (hv : v ∈ Ioo (0 : ℝ) 1) :
    P.real {ω | rank P X ω ≤ u ∧ rank P Y ω ≤ v} = C u v := by
  obtain ⟨x, hx, hr⟩ := exists_quantile h.meas.1 h.cont.1 hu.1 hu.2
  obtain ⟨y, hy, hs⟩ := exists_quantile h.meas.2 h.cont.2 hv.1 hv.2
  rw [show {ω | rank P X ω ≤ u ∧ rank P Y ω ≤ v} = {ω | X ω ≤ x ∧ Y ω ≤ y} from
    Set.ext fun ω => and_congr (hr ω) (hs ω), h.sklar, hx, hy]

/-- the rank of a continuous variable is uniform -/
theorem rank_law (hX : Measurable X) (hc : Continuous (cdf (P.map X))) :
    P.map (rank P X) = volume.restrict (Icc (0 : ℝ) 1) := by
  have hm := rank_measurable (P := P) hX
  have := Measure.isProbabilityMeasure_map (μ := P) hm.aemeasurable
  refine Measure.ext_of_Iic _ _ fun a => ?_
  rw [Measure.map_apply hm measurableSet_Iic, Measure.restrict_apply measurableSet_Iic]
  have key : P {ω | rank P X ω ≤ a} = ENNReal.ofReal (P.real {ω | rank P X ω ≤ a}) := (ofReal_measureReal).symm
  change P {ω | rank P X ω ≤ a} = _
  rcases le_or_gt a 0 with h0 | h0
  · have hz : P.real {ω | rank P X ω ≤ a} = 0 := by
      refine le_antisymm (le_of_forall_pos_le_add fun e he => ?_) measureReal_nonneg
      rw [zero_add]
      have hb : min e (1 / 2) ∈ Ioo (0 : ℝ) 1 := ⟨lt_min he (by norm_num), (min_le_right _ _).trans_lt (by norm_num)⟩
      calc P.real {ω | rank P X ω ≤ a} ≤ P.real {ω | rank P X ω ≤ min e (1 / 2)} :=
            measureReal_mono fun ω (hω : rank P X ω ≤ a) => hω.trans (h0.trans hb.1.le)
        _ = min e (1 / 2) := rank_real hX hc hb.1 hb.2
        _ ≤ e := min_le_left _ _
    rw [key, hz, ENNReal.ofReal_zero]
    refine (measure_mono_null (t := {0}) (fun x hx => ?_) (by simp)).symm
    exact le_antisymm (hx.1.trans h0) hx.2.1
  · rcases lt_or_ge a 1 with h1 | h1
    · rw [key, rank_real hX hc h0 h1, show Iic a ∩ Icc 0 1 = Icc 0 a from ?_, Real.volume_Icc, sub_zero]
      ext x
      simp only [mem_inter_iff, mem_Iic, mem_Icc]
      constructor <;> intro h
      · exact ⟨h.2.1, h.1⟩
      · exact ⟨h.2, h.1, h.2.trans h1.le⟩
    · have e1 : {ω | rank P X ω ≤ a} = univ := eq_univ_of_forall fun ω => (rank_mem hX ω).2.trans h1
      rw [e1, measure_univ, show Iic a ∩ Icc 0 1 = Icc (0 : ℝ) 1 from inter_eq_right.2 fun x hx => hx.2.trans h1]
      simp

theorem rank_integral (hX : Measurable X) (hc : Continuous (cdf (P.map X))) (n : ℕ) :
    ∫ ω, rank P X ω ^ n ∂P = 1 / (n + 1) := by
  have hm := rank_measurable (P := P) hX
  rw [← integral_map hm.aemeasurable (f := fun u : ℝ => u ^ n) (by fun_prop), rank_law hX hc, integral_Icc_eq_integral_Ioc,
    ← intervalIntegral.integral_of_le zero_le_one, integral_pow]
  simp

theorem rank_memLp (hX : Measurable X) : MemLp (rank P X) 2 P :=
  memLp_of_range (rank_measurable hX) (Filter.Eventually.of_forall fun ω => rank_mem hX ω)

theorem rank_mean (hX : Measurable X) (hc : Continuous (cdf (P.map X))) : ∫ ω, rank P X ω ∂P = 1 / 2 := by
  have := rank_integral hX hc 1
  simp only [pow_one, Nat.cast_one] at this
  rw [this]; norm_num

theorem rank_variance (hX : Measurable X) (hc : Continuous (cdf (P.map X))) : Var[rank P X; P] = 1 / 12 := by
  rw [variance_eq_sub (rank_memLp hX), rank_mean hX hc]
  have := rank_integral hX hc 2
  simp only [Pi.pow_apply]
  rw [this]; norm_num

/-- the mean of a distribution function on the unit square -/
theorem lintegral_quadrant {U V : Ω → ℝ} (hU : Measurable U) (hV : Measurable V) :
    ∫⁻ z in Ioo (0 : ℝ) 1 ×ˢ Ioo (0 : ℝ) 1, P {ω | U ω ≤ z.1 ∧ V ω ≤ z.2} =
      ∫⁻ ω, volume (Ioo (0 : ℝ) 1 ∩ Ici (U ω)) * volume (Ioo (0 : ℝ) 1 ∩ Ici (V ω)) ∂P := by
  have hA : MeasurableSet {w : (ℝ × ℝ) × Ω | U w.2 ≤ w.1.1 ∧ V w.2 ≤ w.1.2} :=
    (measurableSet_le (hU.comp measurable_snd) (measurable_fst.comp measurable_fst)).inter
      (measurableSet_le (hV.comp measurable_snd) (measurable_snd.comp measurable_fst))
  have e1 := Measure.prod_apply (μ := (volume : Measure (ℝ × ℝ)).restrict (Ioo (0 : ℝ) 1 ×ˢ Ioo (0 : ℝ) 1)) (ν := P) hA
  rw [Measure.prod_apply_symm hA] at e1
  refine e1.symm.trans (lintegral_congr fun ω => ?_)
  rw [Measure.restrict_apply (hA.preimage measurable_prodMk_right), Measure.volume_eq_prod, ← Measure.prod_prod]
  congr 1
  ext z
  simp only [mem_inter_iff, mem_preimage, mem_prod, mem_Ioo, mem_Ici, mem_ofPred_eq]
  tauto

theorem vol_part {x : ℝ} (hx : x ∈ Icc (0 : ℝ) 1) : volume (Ioo (0 : ℝ) 1 ∩ Ici x) = ENNReal.ofReal (1 - x) := by
  rw [← Real.volume_Ico]
  rcases hx.1.eq_or_lt with h | h
  · rw [← h, inter_eq_left.2 (fun y hy => hy.1.le), Real.volume_Ioo, Real.volume_Ico]
  · congr 1
    ext y
    simp only [mem_inter_iff, mem_Ioo, mem_Ici, mem_Ico]
    constructor
    · rintro ⟨⟨_, h2⟩, h3⟩; exact ⟨h3, h2⟩
    · rintro ⟨h1, h2⟩; exact ⟨⟨h.trans_le h1, h2⟩, h1⟩

/-- Spearman's formula -/
theorem spearman_eq {C : ℝ → ℝ → ℝ} (h : Joins C P X Y) :
    12 * integrateIter C 0 1 0 1 - 3 = spearman P X Y := by
  have mU := rank_measurable (P := P) h.meas.1
  have mV := rank_measurable (P := P) h.meas.2
  have hS : MeasurableSet (Ioo (0 : ℝ) 1 ×ˢ Ioo (0 : ℝ) 1) := measurableSet_Ioo.prod measurableSet_Ioo
  have hmeas : Measurable fun z : ℝ × ℝ => P {ω | rank P X ω ≤ z.1 ∧ rank P Y ω ≤ z.2} := by
    have hA : MeasurableSet {w : (ℝ × ℝ) × Ω | rank P X w.2 ≤ w.1.1 ∧ rank P Y w.2 ≤ w.1.2} :=
      (measurableSet_le (mU.comp measurable_snd) (measurable_fst.comp measurable_fst)).inter
        (measurableSet_le (mV.comp measurable_snd) (measurable_snd.comp measurable_fst))
    exact measurable_measure_prodMk_left hA
  have e1 : integrateIter C 0 1 0 1 =
      ∫ z in Ioo (0 : ℝ) 1 ×ˢ Ioo (0 : ℝ) 1, (P {ω | rank P X ω ≤ z.1 ∧ rank P Y ω ≤ z.2}).toReal := by
    rw [Measure.volume_eq_prod, ← Measure.prod_restrict, integral_prod_symm, integrateIter,
      intervalIntegral.integral_of_le zero_le_one, integral_Ioc_eq_integral_Ioo]
    · refine setIntegral_congr_fun measurableSet_Ioo fun y hy => ?_
      simp only [intervalIntegral.integral_of_le zero_le_one, integral_Ioc_eq_integral_Ioo]
      exact setIntegral_congr_fun measurableSet_Ioo fun x hx => (rank_joint h hx hy).symm
    · refine Integrable.of_bound hmeas.ennreal_toReal.aestronglyMeasurable 1 (Filter.Eventually.of_forall fun z => ?_)
      rw [Real.norm_of_nonneg ENNReal.toReal_nonneg]
      exact measureReal_le_one
  have e2 : integrateIter C 0 1 0 1 = ∫ ω, (1 - rank P X ω) * (1 - rank P Y ω) ∂P := by
    rw [e1, integral_toReal hmeas.aemeasurable (Filter.Eventually.of_forall fun z => measure_lt_top _ _),
      lintegral_quadrant mU mV, integral_eq_lintegral_of_nonneg_ae]
    · congr 1
      refine lintegral_congr fun ω => ?_
      rw [vol_part (rank_mem h.meas.1 ω), vol_part (rank_mem h.meas.2 ω), ENNReal.ofReal_mul]
      linarith [(rank_mem (P := P) h.meas.1 ω).2]
    · exact Filter.Eventually.of_forall fun ω =>
        mul_nonneg (by linarith [(rank_mem (P := P) h.meas.1 ω).2]) (by linarith [(rank_mem (P := P) h.meas.2 ω).2])
    · exact ((measurable_const.sub mU).mul (measurable_const.sub mV)).aestronglyMeasurable
  have lU := rank_memLp (P := P) h.meas.1
  have lV := rank_memLp (P := P) h.meas.2
  have e3 : ∫ ω, (1 - rank P X ω) * (1 - rank P Y ω) ∂P = ∫ ω, rank P X ω * rank P Y ω ∂P := by
    have iU : Integrable (rank P X) P := lU.integrable one_le_two
    have iV : Integrable (rank P Y) P := lV.integrable one_le_two
    have iUV : Integrable (fun ω => rank P X ω * rank P Y ω) P := lU.integrable_mul lV
    have j : Integrable (fun ω => 1 - rank P X ω - rank P Y ω) P := ((integrable_const 1).sub iU).sub iV
    have : (fun ω => (1 - rank P X ω) * (1 - rank P Y ω)) = fun ω => (1 - rank P X ω - rank P Y ω) + rank P X ω * rank P Y ω := by
      ext ω; ring
    have j' : Integrable (fun ω => 1 - rank P X ω) P := (integrable_const 1).sub iU
    rw [this, integral_add j iUV, integral_sub j' iV, integral_sub (integrable_const 1) iU, rank_mean h.meas.1 h.cont.1,
      rank_mean h.meas.2 h.cont.2]
    simp only [integral_const, probReal_univ, one_smul]
    ring
  rw [e2, e3, spearman, pearson, rank_variance h.meas.1 h.cont.1, rank_variance h.meas.2 h.cont.2,
    Real.mul_self_sqrt (by norm_num), covariance_eq_sub lU lV, rank_mean h.meas.1 h.cont.1, rank_mean h.meas.2 h.cont.2]
  simp only [Pi.mul_apply]
  ring

/-- two independent copies are tied with probability 0 -/
theorem no_ties (hX : Measurable X) (h : ∀ x, P {ω | X ω = x} = 0) : (P.prod P) {w | X w.1 = X w.2} = 0 := by
  have hm : MeasurableSet {w : Ω × Ω | X w.1 = X w.2} :=
    measurableSet_eq_fun (hX.comp measurable_fst) (hX.comp measurable_snd)
  rw [Measure.prod_apply hm]
  refine (lintegral_congr fun ω => ?_).trans lintegral_zero
  change P {ω' | X ω = X ω'} = 0
  simpa only [eq_comm] using h (X ω)

/-- Kendall's formula -/
theorem kendall_eq (hX : Measurable X) (hY : Measurable Y) (tX : ∀ x, P {ω | X ω = x} = 0) (tY : ∀ y, P {ω | Y ω = y} = 0) :
    4 * ∫ ω, P.real {ω' | X ω' ≤ X ω ∧ Y ω' ≤ Y ω} ∂P - 1 = kendall P X Y ∧
      (P.prod P).real {w | 0 < (X w.1 - X w.2) * (Y w.1 - Y w.2)} +
        (P.prod P).real {w | (X w.1 - X w.2) * (Y w.1 - Y w.2) < 0} = 1 := by
  have X1 : Measurable fun w : Ω × Ω => X w.1 := hX.comp measurable_fst
  have X2 : Measurable fun w : Ω × Ω => X w.2 := hX.comp measurable_snd
  have Y1 : Measurable fun w : Ω × Ω => Y w.1 := hY.comp measurable_fst
  have Y2 : Measurable fun w : Ω × Ω => Y w.2 := hY.comp measurable_snd
  have mc : MeasurableSet {w : Ω × Ω | 0 < (X w.1 - X w.2) * (Y w.1 - Y w.2)} :=
    measurableSet_lt measurable_const ((X1.sub X2).mul (Y1.sub Y2))
  have md : MeasurableSet {w : Ω × Ω | (X w.1 - X w.2) * (Y w.1 - Y w.2) < 0} :=
    measurableSet_lt ((X1.sub X2).mul (Y1.sub Y2)) measurable_const
  have mA : MeasurableSet {w : Ω × Ω | X w.2 ≤ X w.1 ∧ Y w.2 ≤ Y w.1} :=
    (measurableSet_le X2 X1).inter (measurableSet_le Y2 Y1)
  have mB : MeasurableSet {w : Ω × Ω | X w.1 < X w.2 ∧ Y w.1 < Y w.2} :=
    (measurableSet_lt X1 X2).inter (measurableSet_lt Y1 Y2)
  have ties : ∀ᵐ w ∂P.prod P, X w.1 ≠ X w.2 ∧ Y w.1 ≠ Y w.2 := by
    have a : ∀ᵐ w ∂P.prod P, X w.1 ≠ X w.2 := by
      rw [ae_iff]; simpa only [ne_eq, not_not] using no_ties hX tX
    have b : ∀ᵐ w ∂P.prod P, Y w.1 ≠ Y w.2 := by
      rw [ae_iff]; simpa only [ne_eq, not_not] using no_ties hY tY
    filter_upwards [a, b] with w h1 h2 using ⟨h1, h2⟩
  have hsum : (P.prod P).real {w | 0 < (X w.1 - X w.2) * (Y w.1 - Y w.2)} +
      (P.prod P).real {w | (X w.1 - X w.2) * (Y w.1 - Y w.2) < 0} = 1 := by
    have hdis : Disjoint {w : Ω × Ω | 0 < (X w.1 - X w.2) * (Y w.1 - Y w.2)}
        {w : Ω × Ω | (X w.1 - X w.2) * (Y w.1 - Y w.2) < 0} :=
      Set.disjoint_left.2 fun w (h1 : 0 < (X w.1 - X w.2) * (Y w.1 - Y w.2)) (h2 : (X w.1 - X w.2) * (Y w.1 - Y w.2) < 0) =>
        lt_asymm h1 h2
    rw [← measureReal_union hdis md,
      ← probReal_univ (μ := P.prod P)]
    refine measureReal_congr ?_
    filter_upwards [ties] with w hw
    refine propext ⟨fun _ => trivial, fun _ => ?_⟩
    rcases lt_trichotomy 0 ((X w.1 - X w.2) * (Y w.1 - Y w.2)) with h | h | h
    · exact Or.inl h
    · rcases mul_eq_zero.1 h.symm with h' | h'
      · exact absurd (sub_eq_zero.1 h') hw.1
      · exact absurd (sub_eq_zero.1 h') hw.2
    · exact Or.inr h
  have hA : (P.prod P).real {w | X w.2 ≤ X w.1 ∧ Y w.2 ≤ Y w.1} = ∫ ω, P.real {ω' | X ω' ≤ X ω ∧ Y ω' ≤ Y ω} ∂P := by
    rw [Measure.real, Measure.prod_apply mA]
    exact (integral_toReal (measurable_measure_prodMk_left mA).aemeasurable
      (Filter.Eventually.of_forall fun z => measure_lt_top _ _)).symm
  have hsw : (P.prod P).real {w | X w.1 < X w.2 ∧ Y w.1 < Y w.2} = (P.prod P).real {w | X w.2 ≤ X w.1 ∧ Y w.2 ≤ Y w.1} := by
    have e : (P.prod P).real {w | X w.1 < X w.2 ∧ Y w.1 < Y w.2} = (P.prod P).real {w | X w.2 < X w.1 ∧ Y w.2 < Y w.1} := by
      conv_lhs => rw [← Measure.prod_swap (μ := P) (ν := P), map_measureReal_apply measurable_swap mB]
      rfl
    rw [e]
    refine measureReal_congr ?_
    filter_upwards [ties] with w hw
    exact propext ⟨fun h => ⟨h.1.le, h.2.le⟩, fun h => ⟨lt_of_le_of_ne h.1 hw.1.symm, lt_of_le_of_ne h.2 hw.2.symm⟩⟩
  have hconc : (P.prod P).real {w | 0 < (X w.1 - X w.2) * (Y w.1 - Y w.2)} =
      2 * (P.prod P).real {w | X w.2 ≤ X w.1 ∧ Y w.2 ≤ Y w.1} := by
    rw [two_mul]
    nth_rewrite 2 [← hsw]
    rw [← measureReal_union (Set.disjoint_left.2 fun w h1 h2 => absurd h1.1 (not_le.2 h2.1)) mB]
    refine measureReal_congr ?_
    filter_upwards [ties] with w hw
    refine propext ⟨fun h => ?_, fun h => ?_⟩
    · rcases pos_and_pos_or_neg_and_neg_of_mul_pos h with h | h
      · exact Or.inl ⟨by linarith [h.1], by linarith [h.2]⟩
      · exact Or.inr ⟨by linarith [h.1], by linarith [h.2]⟩
    · rcases h with h | h
      · exact mul_pos (sub_pos.2 (lt_of_le_of_ne h.1 hw.1.symm)) (sub_pos.2 (lt_of_le_of_ne h.2 hw.2.symm))
      · exact mul_pos_of_neg_of_neg (sub_neg.2 h.1) (sub_neg.2 h.2)
  refine ⟨?_, hsum⟩
  rw [kendall, ← hA]
  linarith

theorem atom_zero (hX : Measurable X) (hc : Continuous (cdf (P.map X))) (x : ℝ) : P {ω | X ω = x} = 0 := by
  have := Measure.isProbabilityMeasure_map (μ := P) hX.aemeasurable
  have h1 : (cdf (P.map X)).measure {x} = ENNReal.ofReal (cdf (P.map X) x - Function.leftLim (cdf (P.map X)) x) :=
    StieltjesFunction.measure_singleton _ x
  rw [measure_cdf, hc.continuousAt.continuousWithinAt.leftLim_eq, sub_self, ENNReal.ofReal_zero,
    Measure.map_apply hX (measurableSet_singleton x)] at h1
  exact h1

theorem rank_atom (hX : Measurable X) (hc : Continuous (cdf (P.map X))) (u : ℝ) : P {ω | rank P X ω = u} = 0 := by
  have := Measure.map_apply (μ := P) (rank_measurable (P := P) hX) (measurableSet_singleton u)
  rw [rank_law hX hc] at this
  change P (rank P X ⁻¹' {u}) = 0
  rw [← this]
  exact measure_mono_null (t := {u}) (fun x hx => hx) (by simp) |> fun h => le_antisymm ((Measure.restrict_apply_le _ _).trans h.le) bot_le

/-- Kendall's tau of the ranks is that of the variables -/
theorem kendall_rank (hX : Measurable X) (hY : Measurable Y) (cX : Continuous (cdf (P.map X)))
    (cY : Continuous (cdf (P.map Y))) : kendall P (rank P X) (rank P Y) = kendall P X Y := by
  have h1 := (kendall_eq hX hY (atom_zero hX cX) (atom_zero hY cY)).2
  have h2 := (kendall_eq (rank_measurable hX) (rank_measurable hY) (rank_atom hX cX) (rank_atom hY cY)).2
  have lt {Z : Ω → ℝ} {a b : Ω} (h : rank P Z a < rank P Z b) : Z a < Z b := by
    by_contra hn
    exact absurd (monotone_cdf (P.map Z) (not_lt.1 hn)) (not_le.2 h)
  have a : (P.prod P).real {w | 0 < (rank P X w.1 - rank P X w.2) * (rank P Y w.1 - rank P Y w.2)} ≤
      (P.prod P).real {w | 0 < (X w.1 - X w.2) * (Y w.1 - Y w.2)} := by
    refine measureReal_mono fun w hw => ?_
    replace hw : 0 < (rank P X w.1 - rank P X w.2) * (rank P Y w.1 - rank P Y w.2) := hw
    rcases pos_and_pos_or_neg_and_neg_of_mul_pos hw with h | h
    · exact mul_pos (sub_pos.2 (lt (sub_pos.1 h.1))) (sub_pos.2 (lt (sub_pos.1 h.2)))
    · exact mul_pos_of_neg_of_neg (sub_neg.2 (lt (sub_neg.1 h.1))) (sub_neg.2 (lt (sub_neg.1 h.2)))
  have b : (P.prod P).real {w | (rank P X w.1 - rank P X w.2) * (rank P Y w.1 - rank P Y w.2) < 0} ≤
      (P.prod P).real {w | (X w.1 - X w.2) * (Y w.1 - Y w.2) < 0} := by
    refine measureReal_mono fun w hw => ?_
    replace hw : (rank P X w.1 - rank P X w.2) * (rank P Y w.1 - rank P Y w.2) < 0 := hw
    rcases mul_neg_iff.1 hw with h | h
    · exact mul_neg_of_pos_of_neg (sub_pos.2 (lt (sub_pos.1 h.1))) (sub_neg.2 (lt (sub_neg.1 h.2)))
    · exact mul_neg_of_neg_of_pos (sub_neg.2 (lt (sub_neg.1 h.1))) (sub_pos.2 (lt (sub_pos.1 h.2)))
  rw [kendall, kendall]
  linarith

end Pacal.Depend
