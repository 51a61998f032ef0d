import Verif.Push.Inv
import Verif.Push.PropsComp

/-!
Reciprocal of a random variable (C21).

Full C21 allows atoms away from 0.  The code has no case for atoms: see `C21_violated_atom`.
-/

namespace Pacal
open MeasureTheory Set

/-- **C21.** For a distribution without atoms the distribution built for `1/X` exists and has exactly the law of `1/X`
(tails become pieces at 0 and pieces at 0 become tails).  Missing: atoms away from 0. -/
theorem C21_law_partial {eps : ℝ} (he : 0 ≤ eps) {l : PF ℝ} {pole : Bool} (hl : PF.WF eps l) (hd : PF.Dens l)
    (hc : ∀ s ∈ l, s.isDirac = false) :
    ∃ r, PF.copyProbInverse eps l pole = some r ∧ PF.WF eps r ∧ PF.Dens r ∧ PF.law r = (PF.law l).map fun x => 1 / x := by
  obtain ⟨r, h1, h2, h3, h4, -⟩ := inv_all (pole := pole) he hl hd hc
  exact ⟨r, h1, h2, h3, h4⟩

/-- **C21** in terms of probabilities: for `t > 0`, `P(1/X ≤ t) = P(X < 0) + P(X ≥ 1/t)` -/
theorem C21_prob_partial {eps : ℝ} (he : 0 ≤ eps) {l : PF ℝ} {pole : Bool} (hl : PF.WF eps l) (hd : PF.Dens l)
    (hc : ∀ s ∈ l, s.isDirac = false) {t : ℝ} (ht : 0 < t) :
    ∃ r, PF.copyProbInverse eps l pole = some r ∧
      (PF.law r).real (Iic t) = (PF.law l).real (Iio 0) + (PF.law l).real (Ici (1 / t)) := by
  obtain ⟨r, h1, -, -, h4⟩ := C21_law_partial (pole := pole) he hl hd hc
  refine ⟨r, h1, ?_⟩
  have hfin : IsFiniteMeasure (PF.law l) := PF.law_finite hd
  have h0 : PF.law l {0} = 0 := by
    have := law_singleton hd (x := 0)
    rw [PF.massAt, List.sum_eq_zero] at this
    · rwa [Measure.real, ENNReal.toReal_eq_zero_iff, or_iff_left (measure_ne_top _ _)] at this
    · intro m hm
      obtain ⟨s, hs, rfl⟩ := List.mem_map.1 hm
      have := hc s hs
      cases s <;> simp_all [Seg.isDirac, Seg.massAt]
  rw [h4, Measure.real, Measure.map_apply (by fun_prop) measurableSet_Iic]
  have hset : (fun x : ℝ => 1 / x) ⁻¹' Iic t = (Iio 0 ∪ Ici (1 / t)) ∪ {0} := by
    ext x
    simp only [mem_preimage, mem_Iic, mem_union, mem_Iio, mem_Ici, mem_singleton_iff]
    rcases lt_trichotomy x 0 with h | rfl | h
    · have := one_div_neg.2 h
      exact ⟨fun _ => .inl (.inl h), fun _ => by linarith⟩
    · simp [ht.le]
    · rw [div_le_iff₀ h, div_le_iff₀ ht]
      constructor
      · intro h2; exact .inl (.inr (by linarith))
      · rintro ((h2 | h2) | rfl)
        · exact absurd h (not_lt.2 h2.le)
        · linarith
        · exact absurd h (lt_irrefl _)
  rw [hset, measure_union (by simp [ht]) (measurableSet_singleton _), h0, add_zero]
  show (PF.law l).real _ = _
  rw [measureReal_union ?_ measurableSet_Ici]
  exact Set.disjoint_left.2 fun x hx hx' => absurd ((one_div_pos.2 ht).trans_le hx') (not_lt.2 hx.le)

/-- **C21** for `X ** -1` -/
theorem C21_pow_partial {eps : ℝ} (he : 0 ≤ eps) {l : PF ℝ} {mass : Seg ℝ → ℝ} (nonneg : Bool) (hl : PF.WF eps l)
    (hd : PF.Dens l) (hc : ∀ s ∈ l, s.isDirac = false) :
    ∃ r, powDistr eps mass nonneg l (-1) = some (.distr r) ∧ PF.WF eps r ∧ PF.Dens r ∧
      PF.law r = (PF.law l).map fun x => x⁻¹ := by
  obtain ⟨r, h1, h⟩ := C21_law_partial (pole := false) he hl hd hc
  simp only [one_div] at h
  refine ⟨r, ?_, h⟩
  rw [powDistr, if_neg (by norm_num), if_neg (by norm_num), if_pos rfl, h1]
  rfl

/-- **C21 violated by atoms**: a distribution with an atom, wherever it is, has no usable reciprocal (every evaluation of
the result raises an exception). -/
theorem C21_violated_atom {eps : ℝ} (he : 0 ≤ eps) {l : PF ℝ} {pole : Bool} (hl : PF.WF eps l) {a m : ℝ}
    (h : Seg.dirac a m ∈ l) : PF.copyProbInverse eps l pole = none := by
  have hmem : Seg.dirac a m ∈ l.flatMap (PF.splitSeg [0]) := List.mem_flatMap.2 ⟨_, h, by simp [PF.splitSeg]⟩
  rw [PF.copyProbInverse, splitByPoints_eq he (by simp) hl, Option.bind_some, PF.mapLoop]
  have key : ∀ L : List (Seg ℝ), Seg.dirac a m ∈ L → mapAll (Seg.probInverse pole) L = none := by
    intro L
    induction L with
    | nil => simp
    | cons s L ih =>
      intro hm
      rw [mapAll]
      rcases List.mem_cons.1 hm with rfl | hm
      · rfl
      · rw [ih hm]; cases Seg.probInverse pole s <;> rfl
  rw [key _ hmem]
  rfl

/-- The uniform distribution on `[-1, 1]` meets the hypotheses: `P(1/X ≤ 2) = 1/2 + 1/4`. -/
example : ∃ r, PF.copyProbInverse (1 / 100) [.const (-1) 1 (1 / 2)] false = some r ∧
    (PF.law r).real (Iic 2) = 3 / 4 := by
  have hd : PF.Dens [Seg.const (-1 : ℝ) 1 (1 / 2)] := const_Dens (by norm_num)
  obtain ⟨r, h1, h2⟩ := C21_prob_partial (eps := 1 / 100) (pole := false) (by norm_num) (const_WF (by norm_num)) hd
    (by intro s hs; simp at hs; subst hs; rfl) (t := 2) (by norm_num)
  refine ⟨r, h1, ?_⟩
  rw [h2, PF.law_real_eq_sum hd, PF.law_real_eq_sum hd]
  simp only [List.map_cons, List.map_nil, List.sum_cons, List.sum_nil, add_zero]
  have hc : (Seg.const (-1 : ℝ) 1 (1 / 2)).Dens := const_dens _ _ (by norm_num)
  rw [Seg.law_real rfl hc measurableSet_Iio, Seg.law_real rfl hc measurableSet_Ici]
  have hv : (fun x => (Seg.const (-1 : ℝ) 1 (1 / 2)).val x) = (Ico (-1) 1).indicator fun _ => 1 / 2 := by
    funext x; rw [const_val]; simp [indicator]
  rw [hv, setIntegral_indicator measurableSet_Ico, setIntegral_indicator measurableSet_Ico]
  have e1 : Iio (0 : ℝ) ∩ Ico (-1) 1 = Ico (-1) 0 := by
    ext x; simp only [mem_inter_iff, mem_Iio, mem_Ico]; constructor
    · rintro ⟨h, h', -⟩; exact ⟨h', h⟩
    · rintro ⟨h, h'⟩; exact ⟨h', h, by linarith⟩
  have e2 : Ici (1 / 2 : ℝ) ∩ Ico (-1) 1 = Ico (1 / 2) 1 := by
    ext x; simp only [mem_inter_iff, mem_Ici, mem_Ico]; constructor
    · rintro ⟨h, -, h'⟩; exact ⟨h, h'⟩
    · rintro ⟨h, h'⟩; exact ⟨h, by linarith, h'⟩
  rw [e1, e2]
  simp only [integral_const, Measure.real, Measure.restrict_apply, MeasurableSet.univ, univ_inter, Real.volume_Ico, smul_eq_mul]
  rw [ENNReal.toReal_ofReal (by norm_num), ENNReal.toReal_ofReal (by norm_num)]
  norm_num

end Pacal
