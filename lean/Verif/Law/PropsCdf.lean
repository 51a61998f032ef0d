import Verif.Law.CdfLemmas

/-!
Properties of the CDF (C07).  `PF.law l` is the measure the density `l` stands for (`Verif.Law.Spec`), so the exact
probability `P(X ≤ x)` is `(PF.law l).real (Iic x)`.

The full property would have no hypothesis `PF.Touching` (and no `PF.NotInGap` for arrays).  It is false without
them: see the theorems `C07_violated_*`.
-/

namespace Pacal
open MeasureTheory Set Transform Filter Topology

/-- **C07** for scalars, for functions whose atoms touch a piece.  The CDF is built without error and its value at
`x` is the mass of `(-∞, x]`. -/
theorem C07_cdf_partial {eps : ℝ} (he : 0 ≤ eps) {q : Quad} {p : QPar} (h : ExactQ q p) {l : PF ℝ} (hne : l ≠ [])
    (hw : PF.WF eps l) (hd : PF.Dens l) (ht : PF.Touching l) (x : ℝ) :
    PF.cdf eps q p l x = some ((PF.law l).real (Iic x)) := by
  obtain ⟨c, hc, hcw, hcn, hch, hpick⟩ := cumint_pick he h hne hw hd ht
  rw [PF.cdf, hc, Option.bind_some]
  exact evalScalar_pick hcw hcn hch (hpick x)

/-- **C07** for arrays, at points which are not in a gap between two pieces -/
theorem C07_cdf_array_partial {eps : ℝ} (he : 0 ≤ eps) {q : Quad} {p : QPar} (h : ExactQ q p) {l : PF ℝ} (hne : l ≠ [])
    (hw : PF.WF eps l) (hd : PF.Dens l) (ht : PF.Touching l) {x : ℝ} (hx : PF.NotInGap l x) :
    PF.cdfVec eps q p l x = some ((PF.law l).real (Iic x)) := by
  obtain ⟨c, hc, hcw, hcn, hch, hpick⟩ := cumint_pick he h hne hw hd ht
  rw [PF.cdfVec, hc, Option.map_some, evalVec_pick hcw hcn (cumint_last he h hne hw hd hc) (hpick x)
    (cumint_cover he h hne hw hd hc hx)]

/-- **C07**, shape: a function that returns the probabilities is nondecreasing, right-continuous, tends to 0 on the
left and to the total mass on the right, and jumps at `x` by exactly the mass of the atom there. -/
theorem C07_shape {l : PF ℝ} (hd : PF.Dens l) :
    Monotone (fun x => (PF.law l).real (Iic x)) ∧
    (∀ x, ContinuousWithinAt (fun x => (PF.law l).real (Iic x)) (Ici x) x) ∧
    Tendsto (fun x => (PF.law l).real (Iic x)) atBot (𝓝 0) ∧
    Tendsto (fun x => (PF.law l).real (Iic x)) atTop (𝓝 ((PF.law l).real univ)) ∧
    ∀ x, (PF.law l).real (Iic x) - (PF.law l).real (Iio x) = l.massAt x := by
  have := PF.law_finite hd
  refine ⟨fun x y hxy => measureReal_mono (Iic_subset_Iic.2 hxy), ?_, ?_, ?_, ?_⟩
  · intro x
    have e : (⋂ r > x, Iic r) = Iic x := by
      ext t
      simp only [mem_iInter, mem_Iic]
      exact ⟨fun H => le_of_forall_gt_imp_ge_of_dense fun r hr => H r hr, fun H r hr => H.trans hr.le⟩
    have := tendsto_measure_biInter_gt (μ := PF.law l) (s := fun r : ℝ => Iic r) (a := x)
      (fun r _ => measurableSet_Iic.nullMeasurableSet) (fun i j _ hij => Iic_subset_Iic.2 hij)
      ⟨x + 1, by simp, measure_ne_top _ _⟩
    rw [e] at this
    rw [← continuousWithinAt_Ioi_iff_Ici]
    exact (ENNReal.tendsto_toReal (measure_ne_top _ _)).comp this
  · have := tendsto_measure_iInter_atBot (μ := PF.law l) (s := fun r : ℝ => Iic r)
      (fun r => measurableSet_Iic.nullMeasurableSet) (fun i j hij => Iic_subset_Iic.2 hij) ⟨0, measure_ne_top _ _⟩
    rw [iInter_Iic_eq_empty_iff.2 (by simp), measure_empty] at this
    have := (ENNReal.tendsto_toReal ENNReal.zero_ne_top).comp this
    rwa [ENNReal.toReal_zero] at this
  · exact (ENNReal.tendsto_toReal (measure_ne_top _ _)).comp (tendsto_measure_Iic_atTop (PF.law l))
  · intro x
    rw [← law_singleton hd x, ← Iio_union_right, measureReal_union (by simp) (measurableSet_singleton x)]
    ring

/-! ### violations -/

/-- **C07** fails for an isolated atom left of the first piece (mixture of the constant 0 and `U(1, 2)`):
the code returns 0 at 1/2 instead of 1/2. -/
theorem C07_violated_atom_first {q : Quad} {p : QPar} (h : ExactQ q p) :
    let l : PF ℝ := [.dirac 0 (1 / 2), .const 1 2 (1 / 2)]
    PF.WF 0 l ∧ PF.Dens l ∧ PF.cdf 0 q p l (1 / 2) = some 0 ∧ (PF.law l).real (Iic (1 / 2)) = 1 / 2 := by
  intro l
  have hw : PF.WF 0 l := wf_pair trivial (by norm_num [Seg.WF]) ⟨by simp [Seg.hi, Seg.lo, Ext.fin], by simp⟩
  have hd : PF.Dens l := dens_pair (by norm_num [Seg.Dens]) (const_dens 1 2 (by norm_num))
  refine ⟨hw, hd, ?_, ?_⟩
  · exact cdf_before le_rfl h hw hd (u := 1) (by
      intro T
      exact ⟨_, _, rfl, rfl⟩) (by norm_num)
  · rw [law_pair hd, Seg.law_real_dirac (by norm_num) measurableSet_Iic,
      law_Iic_right (const_dens 1 2 (by norm_num)) (ext_lt.2 (by norm_num))]
    norm_num [indicator]

/-- **C07** fails for two atoms with nothing in between (mixture of the constants 0 and 1): the code returns 0 at
1/2 instead of 1/2. -/
theorem C07_violated_two_atoms {q : Quad} {p : QPar} (h : ExactQ q p) :
    let l : PF ℝ := [.dirac 0 (1 / 2), .dirac 1 (1 / 2)]
    PF.WF 0 l ∧ PF.Dens l ∧ PF.cdf 0 q p l (1 / 2) = some 0 ∧ (PF.law l).real (Iic (1 / 2)) = 1 / 2 := by
  intro l
  have hw : PF.WF 0 l := wf_pair trivial trivial ⟨by simp [Seg.hi, Seg.lo, Ext.fin], by
    rintro a m a' m' h1 h2
    cases h1; cases h2; norm_num⟩
  have hd : PF.Dens l := dens_pair (by norm_num [Seg.Dens]) (by norm_num [Seg.Dens])
  refine ⟨hw, hd, ?_, ?_⟩
  · obtain ⟨T, hT1, -, u, F, huF, huw, hun, -, hf⟩ := cumint_shape le_rfl h (by simp [l]) hw hd
    obtain ⟨B, rfl, s, hs, hB⟩ := hT1 (by simp [l, Seg.isPInf])
    obtain rfl : Seg.dirac 1 (1 / 2) = s := by simpa [l] using hs
    obtain rfl : B = 1 := by simpa [Seg.hi, Ext.fin, eq_comm] using hB
    have hu : u.lo = .fin 1 := by
      rw [show cumSegs q p 0 l = [] from rfl, List.nil_append] at huF
      rw [← (List.cons.inj huF).1]; rfl
    obtain ⟨e, hw'⟩ := hf 1 hu
    exact eval_before e hw' hun (by norm_num)
  · rw [law_pair hd, Seg.law_real_dirac (by norm_num) measurableSet_Iic, Seg.law_real_dirac (by norm_num) measurableSet_Iic]
    norm_num [indicator]

/-- **C07** fails in a gap between two pieces (mixture of `U(0, 1)` and `U(2, 3)` at 3/2): the scalar CDF extends
the constant piece to the left and returns 1/4, the array CDF returns 0; both should be 1/2. -/
theorem C07_violated_gap {q : Quad} {p : QPar} (h : ExactQ q p) :
    let l : PF ℝ := [.const 0 1 (1 / 2), .const 2 3 (1 / 2)]
    PF.WF 0 l ∧ PF.Dens l ∧ PF.cdf 0 q p l (3 / 2) = some (1 / 4) ∧ PF.cdfVec 0 q p l (3 / 2) = some 0 ∧
      (PF.law l).real (Iic (3 / 2)) = 1 / 2 := by
  intro l
  have d1 : (Seg.const 0 1 (1 / 2)).Dens := const_dens 0 1 (by norm_num)
  have d2 : (Seg.const 2 3 (1 / 2)).Dens := const_dens 2 3 (by norm_num)
  have hw : PF.WF 0 l := wf_pair (by norm_num [Seg.WF]) (by norm_num [Seg.WF]) ⟨ext_le.2 (by norm_num), by simp⟩
  have hd : PF.Dens l := dens_pair d1 d2
  have m1 : (Seg.const 0 1 (1 / 2)).law.real univ = 1 / 2 := by
    rw [const_mass 0 1 (by norm_num) (by norm_num)]; norm_num
  obtain ⟨T, hT1, -, u, F, huF, huw, hun, -, hf⟩ := cumint_shape le_rfl h (by simp [l]) hw hd
  obtain ⟨B, rfl, s, hs, hB⟩ := hT1 (by simp [l, Seg.isPInf])
  obtain rfl : Seg.const 2 3 (1 / 2) = s := by simpa [l] using hs
  obtain rfl : B = 3 := by simpa [Seg.hi, Ext.fin, eq_comm] using hB
  have huF' : (Seg.const 0 1 (1 / 2)).cumint q p 0 :: [(Seg.const 2 3 (1 / 2)).cumint q p (0 + 1 / 2),
      .pinf 3 fun _ => (PF.law l).real univ] = u :: F := by
    have : cumSegs q p 0 l = [(Seg.const 0 1 (1 / 2)).cumint q p 0,
        (Seg.const 2 3 (1 / 2)).cumint q p (0 + (Seg.const 0 1 (1 / 2)).law.real univ)] := rfl
    rw [← huF, this, m1]; rfl
  obtain ⟨rfl, rfl⟩ := List.cons.inj huF'
  obtain ⟨e, hw'⟩ := hf 0 rfl
  have hn' : ∀ s ∈ Seg.minf 0 (fun _ => (0 : ℝ)) :: (Seg.const 0 1 (1 / 2)).cumint q p 0 ::
      [(Seg.const 2 3 (1 / 2)).cumint q p (0 + 1 / 2), .pinf 3 fun _ => (PF.law l).real univ], s.isDirac = false := by
    intro s hs
    rcases List.mem_cons.1 hs with rfl | hs
    · rfl
    · exact hun s hs
  refine ⟨hw, hd, ?_, ?_, ?_⟩
  · rw [PF.cdf, e, Option.bind_some]
    refine evalScalar_pick hw' hn' (by simp [Seg.lo]) ?_
    have v : ((Seg.const 2 3 (1 / 2)).cumint q p (0 + 1 / 2)).fn (3 / 2) = 1 / 4 := by
      show 0 + 1 / 2 + 1 / 2 * (clipHi 3 ((3 / 2 : ℝ) : WithTop ℝ) - clipLo 2 ((2 : ℝ) : WithBot ℝ)) = (1 / 4 : ℝ)
      rw [clipHi_coe, clipLo_coe]; norm_num
    have h0 : ¬ Ext.fin (3 / 2) < (Seg.minf 0 fun _ => (0 : ℝ)).hi := fun hc => absurd (ext_lt.1 hc) (by norm_num)
    have h1 : ¬ Ext.fin (3 / 2) < ((Seg.const 0 1 (1 / 2)).cumint q p 0).hi :=
      fun hc => absurd (ext_lt.1 hc) (by norm_num)
    have h2 : Ext.fin (3 / 2) < ((Seg.const 2 3 (1 / 2)).cumint q p (0 + 1 / 2)).hi := ext_lt.2 (by norm_num)
    unfold pick
    rw [if_neg h0]
    unfold pick
    rw [if_neg h1]
    unfold pick
    rw [if_pos h2, v]
  · rw [PF.cdfVec, e, Option.map_some]
    have hsegs : ∀ c : PF ℝ, (∀ s ∈ c, s.isDirac = false) → PF.segs c = c := fun c hc =>
      List.filter_eq_self.2 fun s hs => by simp [hc s hs]
    have hx : ¬ (Ext.fin (3 / 2 : ℝ) = Ext.pinf) := ne_of_lt (ext_lt_pinf _)
    unfold PF.evalVec
    rw [hsegs _ hn']
    have h0 : ¬ Ext.fin (3 / 2) < (Seg.minf 0 fun _ => (0 : ℝ)).hi := fun hc => absurd (ext_lt.1 hc) (by norm_num)
    have h1 : ¬ Ext.fin (3 / 2) < ((Seg.const 0 1 (1 / 2)).cumint q p 0).hi :=
      fun hc => absurd (ext_lt.1 hc) (by norm_num)
    have h2 : ¬ ((Seg.const 2 3 (1 / 2)).cumint q p (0 + 1 / 2)).lo ≤ Ext.fin (3 / 2) :=
      fun hc => absurd (ext_le.1 hc) (by norm_num)
    have h3 : ¬ (Seg.pinf 3 fun _ => (PF.law l).real univ).lo ≤ Ext.fin (3 / 2) :=
      fun hc => absurd (ext_le.1 hc) (by norm_num)
    have h4 : ¬ (Ext.fin (3 / 2 : ℝ) = (Seg.pinf 3 fun _ => (PF.law l).real univ).hi) := hx
    simp only [PF.evalVecLoop, List.getLast?_cons_cons, List.getLast?_singleton, h0, h1, h2, h3, h4, and_false,
      false_and, if_false]
  · rw [law_pair hd, law_Iic_left d1 (ext_le.2 (by norm_num)), m1, law_Iic_right d2 (ext_lt.2 (by norm_num))]
    norm_num

/-! ### non-vacuity -/

/-- an atom, a constant piece starting at it and an atom at its end satisfy all hypotheses of `C07_cdf_partial` -/
example : PF.cdf 0 exactQuad ⟨0, 10, 6, 8⟩ [.dirac 0 (1 / 4), .const 0 1 (1 / 2), .dirac 1 (1 / 4)] 0 = some (1 / 4) := by
  have hd : PF.Dens [.dirac 0 (1 / 4), .const 0 1 (1 / 2), .dirac 1 (1 / 4)] := by
    intro s hs
    simp only [List.mem_cons, List.not_mem_nil, or_false] at hs
    rcases hs with rfl | rfl | rfl
    · norm_num [Seg.Dens]
    · exact const_dens 0 1 (by norm_num)
    · norm_num [Seg.Dens]
  rw [C07_cdf_partial le_rfl ⟨fun _ _ _ => rfl, rfl, by norm_num, by norm_num, by norm_num⟩ (by simp) ?_ hd ?_]
  · congr 1
    rw [PF.law_real_eq_sum hd]
    simp only [List.map_cons, List.map_nil, List.sum_cons, List.sum_nil]
    rw [Seg.law_real_dirac (by norm_num) measurableSet_Iic, Seg.law_real_dirac (by norm_num) measurableSet_Iic,
      Seg.law_real rfl (const_dens 0 1 (by norm_num)) measurableSet_Iic,
      ← const_segIntegral exactQuad ⟨0, 10, 6, 8⟩ (by norm_num) (.inl le_rfl)]
    show _ + (1 / 2 * (clipHi 1 ((0 : ℝ) : WithTop ℝ) - clipLo 0 ((0 : ℝ) : WithBot ℝ)) + _) = (1 / 4 : ℝ)
    rw [clipHi_coe, clipLo_coe]
    norm_num [indicator]
  · refine ⟨?_, ?_⟩
    · intro s hs
      simp only [List.mem_cons, List.not_mem_nil, or_false] at hs
      rcases hs with rfl | rfl | rfl <;> norm_num [Seg.WF]
    · simp [Seg.LeftOf, Seg.hi, Seg.lo, Ext.fin]
      rintro a m a' m' rfl - rfl -
      norm_num
  · exact ⟨rfl, by simp [Seg.follows, Seg.isDirac, Seg.hi]⟩

end Pacal
