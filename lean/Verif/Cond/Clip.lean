import Verif.Cond.Lemmas

/-! The three ways of clipping a distribution. -/

namespace Pacal
namespace Cond
open MeasureTheory Set Transform Conv

variable {P : Par} {f : PF ℝ} {T : Set ℝ}

theorem Args.mm (h : Args P f T) {c : ℝ} (hc : c ∈ T) : MMArgs P [.dirac c 1] f ∧ MMArgs P f [.dirac c 1] := by
  refine ⟨⟨h.eps, by simp, h.fne, const_wf _ _ _, h.wf, ?_⟩, ⟨h.eps, h.fne, by simp, h.wf, const_wf _ _ _, ?_⟩⟩
  · intro a m a' m' h1 h2
    rw [List.mem_singleton] at h1
    cases h1
    exact (h.atoms _ hc a' m' h2).imp Eq.symm id
  · intro a m a' m' h1 h2
    rw [List.mem_singleton] at h2
    cases h2
    exact (h.atoms _ hc a m h1).imp id fun h => by rwa [abs_sub_comm]

theorem null_right {μ : Measure ℝ} {c : ℝ} (h : μ (Ici c) = 0) : μ {c} = 0 :=
  measure_mono_null (singleton_subset_iff.2 (mem_Ici.2 le_rfl)) h
theorem null_left {μ : Measure ℝ} {c : ℝ} (h : μ (Iic c) = 0) : μ {c} = 0 :=
  measure_mono_null (singleton_subset_iff.2 (mem_Iic.2 le_rfl)) h

theorem map_const {op : ℝ → ℝ → ℝ} (hop : Measurable fun p : ℝ × ℝ => op p.1 p.2) (c : ℝ) (μ : Measure ℝ) [SFinite μ] :
    opLaw op (PF.law [.dirac c 1]) μ = μ.map (op c) := by
  rw [const_law', opLaw_dirac_left hop]
  simp

theorem map_const_right {op : ℝ → ℝ → ℝ} (hop : Measurable fun p : ℝ × ℝ => op p.1 p.2) (c : ℝ) (μ : Measure ℝ) [SFinite μ] :
    opLaw op μ (PF.law [.dirac c 1]) = μ.map fun x => op x c := by
  rw [const_law', ENNReal.ofReal_one, one_smul, opLaw, Measure.prod_dirac, Measure.map_map hop measurable_prodMk_right]
  rfl

/-- the maximum with a constant -/
theorem gt_clip (h : Args P f T) (hP : ExactQ P.q P.qp) {L : ℝ} (hL : L ∈ T) :
    ∃ pre m post, convmax P [.dirac L 1] f = some (pre ++ .dirac L m :: post) ∧ (∀ s ∈ pre, s.lo < .fin L) ∧
      m = (PF.law f).real (Iic L) ∧ PF.WF P.eps post ∧ PF.Dens post ∧ PF.law post = (PF.law f).restrict (Ioi L) ∧
      PF.ends post ⊆ {L} ∪ PF.ends f := by
  have := h.instProb
  obtain ⟨r, r1, r2, r3, r4, -, r6, r7⟩ := mm_full (opMax hP) (h.mm hL).1 (const_dens' zero_le_one) h.dens
  obtain ⟨m, hm⟩ := (r7 L).2 (.inl (at_const.2 rfl))
  obtain ⟨pre, post, rfl, h1, h2, h3, h4⟩ := split_atom h.eps r2 hm
  have hφ : Measurable (max L) := measurable_const.max measurable_id
  rw [map_const tailMax.meas] at r4
  have hsub : post.Sublist (pre ++ .dirac L m :: post) := (List.sublist_cons_self _ _).trans (List.sublist_append_right _ _)
  refine ⟨pre, m, post, r1, fun s hs => (h1 s hs).2, ?_, sub_wf hsub r2, sub_dens hsub r3, ?_, ?_⟩
  · rw [atom_mass (r3 _ hm) (null_right h3) (null_left h4), r4,
      map_measureReal_apply hφ (measurableSet_singleton _)]
    congr 1
    ext x
    simp
  · have hr : (PF.law (pre ++ .dirac L m :: post)).restrict (Ioi L) = PF.law post := by
      rw [PF.law_append, PF.law_cons, Measure.restrict_add, Measure.restrict_add, restrict_zero h3 Ioi_subset_Ici_self,
        restrict_self h4 (by rw [compl_Ioi]), restrict_zero (B := Ioi L) (by simp [Seg.law]) subset_rfl]
      simp
    rw [← hr, r4, clip hφ measurableSet_Ioi]
    · ext x; simp
    · intro x hx; exact max_eq_right (le_of_lt hx)
  · refine (ends_mono hsub.subset).trans ((ends_mm max_choice r6 r7).trans ?_)
    rintro x (hx | hx)
    · exact .inl (ends_const.1 hx)
    · exact .inr hx

/-- the minimum with a constant -/
theorem lt_clip (h : Args P f T) (hP : ExactQ P.q P.qp) {U : ℝ} (hU : U ∈ T) :
    ∃ pre m post, convmin P [.dirac U 1] f = some (pre ++ .dirac U m :: post) ∧ m = (PF.law f).real (Ici U) ∧
      PF.WF P.eps (pre ++ .dirac U m :: post) ∧ PF.Dens (pre ++ .dirac U m :: post) ∧ PF.law pre = (PF.law f).restrict (Iio U) ∧
      PF.ends (pre ++ .dirac U m :: post) ⊆ {U} ∪ PF.ends f ∧ PF.law (pre ++ .dirac U m :: post) = (PF.law f).map (min U) ∧
      (∀ s ∈ post, ∃ a n, U < a ∧ s = .dirac a n ∧ PF.At f a) ∧ ∀ a, U < a → PF.At f a → PF.At post a := by
  have := h.instProb
  obtain ⟨r, r1, r2, r3, r4, -, r6, r7⟩ := mm_full (opMin hP) (h.mm hU).1 (const_dens' zero_le_one) h.dens
  obtain ⟨m, hm⟩ := (r7 U).2 (.inl (at_const.2 rfl))
  obtain ⟨pre, post, rfl, h1, h2, h3, h4⟩ := split_atom h.eps r2 hm
  have hφ : Measurable (min U) := measurable_const.min measurable_id
  rw [map_const tailMin.meas] at r4
  refine ⟨pre, m, post, r1, ?_, r2, r3, ?_, ?_, r4, ?_, ?_⟩
  · rw [atom_mass (r3 _ hm) (null_right h3) (null_left h4), r4,
      map_measureReal_apply hφ (measurableSet_singleton _)]
    congr 1
    ext x
    simp
  · have hr : (PF.law (pre ++ .dirac U m :: post)).restrict (Iio U) = PF.law pre := by
      rw [PF.law_append, PF.law_cons, Measure.restrict_add, Measure.restrict_add, restrict_zero h4 Iio_subset_Iic_self,
        restrict_self h3 (by rw [compl_Iio]), restrict_zero (B := Iio U) (by simp [Seg.law]) subset_rfl]
      simp
    rw [← hr, r4, clip hφ measurableSet_Iio]
    · ext x; simp
    · intro x hx; exact min_eq_right (le_of_lt hx)
  · refine (ends_mm min_choice r6 r7).trans ?_
    rintro x (hx | hx)
    · exact .inl (ends_const.1 hx)
    · exact .inr hx
  · intro s hs
    obtain ⟨s1, s2⟩ := h2 s hs
    rcases isDirac_cases s with hd | ⟨a, n, rfl⟩
    · obtain ⟨-, e2⟩ := r6 s (by simp [hs]) hd
      obtain ⟨a, ha, b, hb, e⟩ := mem_mmBreaks.1 e2
      rw [breaks_const] at ha
      subst ha
      rw [e] at s2
      exact absurd s2 (not_lt.2 (min_le_left _ _))
    · have ha : U < a := Ext.fin_lt_fin.1 s2
      refine ⟨a, n, ha, rfl, ?_⟩
      rcases (r7 a).1 ⟨n, by simp [hs]⟩ with h | h
      · exact absurd (at_const.1 h) ha.ne'
      · exact h
  · intro a ha hf
    obtain ⟨n, hn⟩ := (r7 a).2 (.inr hf)
    rcases List.mem_append.1 hn with hn | hn
    · have := Ext.fin_lt_fin.1 (h1 _ hn).2
      exact absurd this (not_lt.2 ha.le)
    · rcases List.mem_cons.1 hn with e | hn
      · cases e; exact absurd ha (lt_irrefl _)
      · exact ⟨n, hn⟩

/-- minimum with `U`, then maximum with `L` -/
theorem between_clip (h : Args P f T) (hP : ExactQ P.q P.qp) {L U : ℝ} (hL : L ∈ T) (hU : U ∈ T) (hLU : P.eps < U - L)
    (hhi : ∀ a m, Seg.dirac a m ∈ f → a ≤ U) :
    ∃ y pre m mid m', convmin P f [.dirac U 1] = some y ∧ convmax P y [.dirac L 1] = some (pre ++ .dirac L m :: (mid ++ [.dirac U m'])) ∧
      PF.WF P.eps (pre ++ .dirac L m :: (mid ++ [.dirac U m'])) ∧ PF.Dens (pre ++ .dirac L m :: (mid ++ [.dirac U m'])) ∧
      (∀ s ∈ pre, ∃ a n, s = .dirac a n ∧ a < L ∧ PF.At f a) ∧ (∀ a < L, PF.At f a → PF.At pre a) ∧
      PF.law pre = 0 ∧ PF.ends (pre ++ .dirac L m :: (mid ++ [.dirac U m'])) ⊆ T ∪ PF.ends f ∧
      m = (PF.law f).real (Iic L) ∧ m' = (PF.law f).real (Ici U) ∧ PF.WF P.eps mid ∧ PF.Dens mid ∧
      PF.law mid = (PF.law f).restrict (Ioo L U) := by
  have := h.instProb
  have hlt : L < U := by have := h.eps; linarith
  obtain ⟨y, y1, y2, y3, y4, -, y6, y7⟩ := mm_full (opMin hP) (h.mm hU).2 h.dens (const_dens' zero_le_one)
  obtain ⟨u, hu⟩ := (y7 U).2 (.inr (at_const.2 rfl))
  have hy : MMArgs P y [.dirac L 1] := by
    refine ⟨h.eps, by rintro rfl; simp at hu, by simp, y2, const_wf _ _ _, ?_⟩
    intro a m a' m' h1 h2
    rw [List.mem_singleton] at h2
    cases h2
    rcases (y7 a).1 ⟨m, h1⟩ with ⟨n, h'⟩ | h'
    · exact (h.atoms _ hL a n h').imp id fun h => by rwa [abs_sub_comm]
    · rw [at_const.1 h']
      exact .inr (hLU.trans_le (le_abs_self _))
  obtain ⟨z, z1, z2, z3, z4, -, z6, z7⟩ := mm_full (opMax hP) hy y3 (const_dens' zero_le_one)
  have hfy := PF.law_finite y3
  rw [map_const_right tailMin.meas] at y4
  have hmx : Measurable fun x : ℝ => max x L := measurable_id.max measurable_const
  have hmn : Measurable fun x : ℝ => min x U := measurable_id.min measurable_const
  rw [map_const_right tailMax.meas, y4, Measure.map_map hmx hmn] at z4
  obtain ⟨m, hm⟩ := (z7 L).2 (.inr (at_const.2 rfl))
  obtain ⟨m', hm'⟩ := (z7 U).2 (.inl ⟨u, hu⟩)
  obtain ⟨pre, post, rfl, p1, p2, p3, p4⟩ := split_atom h.eps z2 hm
  -- only atoms before `L`
  have hpre : ∀ s ∈ pre, ∃ a n, s = .dirac a n ∧ a < L ∧ PF.At f a := by
    intro s hs
    obtain ⟨s1, s2⟩ := p1 s hs
    rcases isDirac_cases s with hd | ⟨a, n, rfl⟩
    · obtain ⟨e1, -⟩ := z6 s (by simp [hs]) hd
      obtain ⟨a, ha, b, hb, e⟩ := mem_mmBreaks.1 e1
      rw [breaks_const] at hb
      subst hb
      rw [e] at s2
      exact absurd s2 (not_lt.2 (le_max_right _ _))
    · have ha : a < L := Ext.fin_lt_fin.1 s2
      rcases (z7 a).1 ⟨n, by simp [hs]⟩ with h' | h'
      · rcases (y7 a).1 h' with h' | h'
        · exact ⟨a, n, rfl, ha, h'⟩
        · exact absurd (at_const.1 h') (ha.trans hlt).ne
      · exact absurd (at_const.1 h') ha.ne
  have hm'' : Seg.dirac U m' ∈ post := by
    rcases List.mem_append.1 hm' with h' | h'
    · obtain ⟨a, n, e, ha, -⟩ := hpre _ h'
      cases e
      exact absurd (ha.trans hlt) (lt_irrefl _)
    · rcases List.mem_cons.1 h' with e | h'
      · cases e; exact absurd hlt (lt_irrefl _)
      · exact h'
  have hsub : post.Sublist (pre ++ .dirac L m :: post) := (List.sublist_cons_self _ _).trans (List.sublist_append_right _ _)
  obtain ⟨mid, rest, rfl, q1, q2, q3, q4⟩ := split_atom h.eps (sub_wf hsub z2) hm''
  -- nothing after `U`
  have hrest : rest = [] := by
    by_contra hne
    obtain ⟨s, hs⟩ := List.exists_mem_of_ne_nil _ hne
    obtain ⟨s1, s2⟩ := q2 s hs
    have hyb : ∀ e ∈ PF.getBreaks y, e ≤ .fin U := by
      intro e he
      obtain ⟨t, ht, hte⟩ := mem_getBreaks.1 he
      rcases isDirac_cases t with hd | ⟨a, n, rfl⟩
      · have key : ∀ e ∈ mmBreaks min f [.dirac U 1], e ≤ .fin U := by
          intro e he
          obtain ⟨a, ha, b, hb, rfl⟩ := mem_mmBreaks.1 he
          rw [breaks_const] at hb
          subst hb
          exact min_le_right _ _
        obtain ⟨e1, e2⟩ := y6 t ht hd
        rcases hte with rfl | rfl
        · exact key _ e1
        · exact key _ e2
      · have ha : a ≤ U := by
          rcases (y7 a).1 ⟨n, ht⟩ with ⟨k, h'⟩ | h'
          · exact hhi a k h'
          · exact (at_const.1 h').le
        rcases hte with rfl | rfl <;> exact Ext.fin_le_fin.2 ha
    rcases isDirac_cases s with hd | ⟨a, n, rfl⟩
    · obtain ⟨-, e2⟩ := z6 s (by simp [hs]) hd
      obtain ⟨a, ha, b, hb, e⟩ := mem_mmBreaks.1 e2
      rw [breaks_const] at hb
      subst hb
      rw [e] at s2
      exact absurd s2 (not_lt.2 (max_le (hyb a ha) (Ext.fin_le_fin.2 hlt.le)))
    · have ha : U < a := Ext.fin_lt_fin.1 s2
      rcases (z7 a).1 ⟨n, by simp [hs]⟩ with h' | h'
      · rcases (y7 a).1 h' with ⟨k, h'⟩ | h'
        · exact absurd ha (not_lt.2 (hhi a k h'))
        · exact absurd (at_const.1 h') ha.ne'
      · exact absurd (at_const.1 h') (hlt.trans ha).ne'
  subst hrest
  have hφ : Measurable ((fun x => max x L) ∘ fun x => min x U) := hmx.comp hmn
  have hsub' : mid.Sublist (pre ++ .dirac L m :: (mid ++ [.dirac U m'])) := (List.sublist_append_left _ _).trans hsub
  have hL' : PF.law mid (Iic L) = 0 := by
    rw [PF.law_append, Measure.add_apply] at p4
    exact (add_eq_zero.1 p4).1
  have hpz : PF.law pre = 0 := by
    refine Measure.measure_univ_eq_zero.1 ?_
    rw [← Iio_union_Ici (a := L)]
    refine measure_union_null ?_ p3
    have h0 : PF.law (pre ++ .dirac L m :: (mid ++ [.dirac U m'])) (Iio L) = 0 := by
      rw [z4, Measure.map_apply hφ measurableSet_Iio]
      convert measure_empty (μ := PF.law f)
      ext x
      simp only [mem_preimage, Function.comp, mem_Iio, mem_empty_iff_false, iff_false, not_lt]
      exact le_max_right _ _
    rw [PF.law_append, Measure.add_apply] at h0
    exact (add_eq_zero.1 h0).1
  refine ⟨y, pre, m, mid, m', y1, z1, z2, z3, hpre, ?_, hpz, ?_, ?_, ?_, sub_wf hsub' z2, sub_dens hsub' z3, ?_⟩
  · intro a ha hf
    obtain ⟨n, hn⟩ := (z7 a).2 (.inl ((y7 a).2 (.inl hf)))
    rcases List.mem_append.1 hn with hn | hn
    · exact ⟨n, hn⟩
    · exfalso
      rcases List.mem_cons.1 hn with e | hn
      · cases e; exact absurd ha (lt_irrefl _)
      · exact absurd (Ext.fin_le_fin.1 (p2 _ hn).1) (not_le.2 ha)
  · refine (ends_mm max_choice z6 z7).trans ?_
    rintro x (hx | hx)
    · rcases ends_mm min_choice y6 y7 hx with hx | hx
      · exact .inr hx
      · exact .inl ((ends_const.1 hx).symm ▸ hU)
    · exact .inl ((ends_const.1 hx).symm ▸ hL)
  · rw [atom_mass (z3 _ hm) (null_right p3) (null_left p4), z4,
      map_measureReal_apply hφ (measurableSet_singleton _)]
    congr 1
    ext x
    simp [hlt]
  · have e : m' = (PF.law ((pre ++ .dirac L m :: mid) ++ .dirac U m' :: [])).real {U} :=
      atom_mass (z3 _ hm') (by
        rw [PF.law_append, hpz, zero_add, PF.law_cons, Measure.add_apply, null_right q3]
        simp [Seg.law, hlt.ne]) (by simp [PF.law])
    rw [e, show (pre ++ Seg.dirac L m :: mid) ++ Seg.dirac U m' :: [] = pre ++ Seg.dirac L m :: (mid ++ Seg.dirac U m' :: []) by simp, z4,
      map_measureReal_apply hφ (measurableSet_singleton _)]
    congr 1
    ext x
    simp only [mem_preimage, Function.comp, mem_singleton_iff, mem_Ici]
    constructor
    · intro hx
      by_contra hc
      push Not at hc
      rw [min_eq_left hc.le] at hx
      rcases max_choice x L with h' | h' <;> rw [h'] at hx
      · exact absurd hx hc.ne
      · exact absurd hx hlt.ne
    · intro hx
      rw [min_eq_right hx, max_eq_left hlt.le]
  · have hr : (PF.law (pre ++ .dirac L m :: (mid ++ [.dirac U m']))).restrict (Ioo L U) = PF.law mid := by
      rw [PF.law_append, hpz, zero_add, PF.law_cons, PF.law_append, PF.law_cons, PF.law_nil, add_zero, Measure.restrict_add, Measure.restrict_add,
        restrict_zero (B := Ioo L U) (μ := Seg.law (.dirac L m)) (by simp [Seg.law]) subset_rfl,
        restrict_zero (B := Ioo L U) (μ := Seg.law (.dirac U m')) (by simp [Seg.law]) subset_rfl,
        restrict_self (B := Iic L ∪ Ici U) (measure_union_null hL' q3)]
      · simp
      · intro x hx
        rw [mem_compl_iff, mem_Ioo, not_and_or, not_lt, not_lt] at hx
        exact hx
    rw [← hr, z4, clip hφ measurableSet_Ioo]
    · ext x
      simp only [mem_preimage, Function.comp, mem_Ioo]
      constructor
      · rintro ⟨h1, h2⟩
        rw [max_lt_iff] at h2
        rw [lt_max_iff] at h1
        have h3 := (lt_min_iff.1 (h1.resolve_right (lt_irrefl _)))
        refine ⟨h3.1, (min_lt_iff.1 h2.1).resolve_right (lt_irrefl _)⟩
      · rintro ⟨h1, h2⟩
        rw [min_eq_left h2.le, max_eq_left h1.le]
        exact ⟨h1, h2⟩
    · rintro x ⟨h1, h2⟩
      show max (min x U) L = x
      rw [min_eq_left h2.le, max_eq_left h1.le]

end Cond
end Pacal
