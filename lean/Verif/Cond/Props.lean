import Verif.Cond.Example

/-!
# Property C24 (conditioning on an inequality)

`condGt`, `condLt`, `condBetween` are the distributions computed for `X | Gt(L)`, `X | Lt(U)`, `X | Between(L, U)`
(`Cond/Model.lean`).  The specification is Mathlib's conditional measure `ProbabilityTheory.cond μ A`, that is
`B ↦ μ (A ∩ B) / μ A`.  `Args` (`Cond/Lemmas.lean`) are the conditions on the distribution and the thresholds, `ExactQ`:
the quadrature is exact.
-/

namespace Pacal
namespace Cond
open MeasureTheory Set Transform Conv

variable {P : Par} {f : PF ℝ} {T : Set ℝ}

/-- **C24, `X | Gt(L)`**: the conditional law given `X > L`, for every threshold (between break points, at a break point, at
an atom, below the support) and all atoms. -/
theorem C24_gt_partial {L : ℝ} (h : Args P f {L}) (hP : ExactQ P.q P.qp) (hL : PF.law f (Ioi L) ≠ 0) (pole : ℝ → ℝ → Pole) :
    ∃ r, condGt P pole f L = some r ∧ PF.WF P.eps r ∧ PF.Dens r ∧ PF.law r = ProbabilityTheory.cond (PF.law f) (Ioi L) := by
  have := h.instProb
  obtain ⟨pre, m, post, h1, h2, h3, h4, h5, h6, h7⟩ := gt_clip h hP (mem_singleton L)
  have hm : 1 - m = (PF.law f).real (Ioi L) := by
    rw [h3, ← compl_Iic, probReal_compl_eq_one_sub measurableSet_Iic]
  have hp : 0 < 1 - m := by rw [hm]; exact ENNReal.toReal_pos hL (measure_ne_top _ _)
  obtain ⟨r, r1, r2, r3, r4⟩ := rescale_spec h.eps hP pole h4 h5 (by
    rw [h6]; intro h0; exact hL (Measure.restrict_eq_zero.1 h0)) h7 h.apart hp
  refine ⟨r, ?_, r2, r3, by rw [r4, h6, cond_eq hp hm]⟩
  rw [condGt, constDistr_eq, Option.bind_some, h1, Option.bind_some, popBelow_eq h2, Option.bind_some]
  exact r1

/-- half atom at 0, half uniform on `[0, 1]`, given `X > 0` (the threshold is the atom) -/
example (pole : ℝ → ℝ → Pole) : ∃ r, condGt exPar pole halfAtom 0 = some r ∧
    PF.law r = ProbabilityTheory.cond (PF.law halfAtom) (Ioi 0) := by
  obtain ⟨r, h, -, -, h'⟩ := C24_gt_partial (halfAtom_cond (T := {0}) (by rintro c rfl; exact ⟨0, by norm_num, by norm_num⟩)) exPar_exact
    (halfAtom_pos measurableSet_Ioi le_rfl one_pos le_rfl Ioo_subset_Ioi_self) pole
  exact ⟨r, h, h'⟩

/-- **C24, `X | Lt(U)`**, for distributions without atoms above the threshold -/
theorem C24_lt_partial {U : ℝ} (h : Args P f {U}) (hP : ExactQ P.q P.qp) (hU : PF.law f (Iio U) ≠ 0)
    (hhi : ∀ a m, Seg.dirac a m ∈ f → a ≤ U) (pole : ℝ → ℝ → Pole) :
    ∃ r, condLt P pole f U = some r ∧ PF.WF P.eps r ∧ PF.Dens r ∧ PF.law r = ProbabilityTheory.cond (PF.law f) (Iio U) := by
  have := h.instProb
  obtain ⟨pre, m, post, h1, h3, h4, h5, h6, h7, -, h8, -⟩ := lt_clip h hP (mem_singleton U)
  have hpost : post = [] := by
    by_contra hne
    obtain ⟨s, hs⟩ := List.exists_mem_of_ne_nil _ hne
    obtain ⟨a, n, ha, -, k, hk⟩ := h8 s hs
    exact absurd ha (not_lt.2 (hhi a k hk))
  subst hpost
  have hm : 1 - m = (PF.law f).real (Iio U) := by
    rw [h3, ← compl_Ici, probReal_compl_eq_one_sub measurableSet_Ici]
  have hp : 0 < 1 - m := by rw [hm]; exact ENNReal.toReal_pos hU (measure_ne_top _ _)
  have hsub : pre.Sublist (pre ++ [.dirac U m]) := List.sublist_append_left _ _
  obtain ⟨r, r1, r2, r3, r4⟩ := rescale_spec h.eps hP pole (sub_wf hsub h4) (sub_dens hsub h5) (by
    rw [h6]; intro h0; exact hU (Measure.restrict_eq_zero.1 h0)) ((ends_mono hsub.subset).trans h7) h.apart hp
  refine ⟨r, ?_, r2, r3, by rw [r4, h6, cond_eq hp hm]⟩
  rw [condLt, constDistr_eq, Option.bind_some, h1, Option.bind_some, List.getLast?_append, List.dropLast_concat]
  exact r1

/-- half atom at 0, half uniform on `[0, 1]`, given `X < 1/2` -/
example (pole : ℝ → ℝ → Pole) : ∃ r, condLt exPar pole halfAtom (1 / 2) = some r ∧
    PF.law r = ProbabilityTheory.cond (PF.law halfAtom) (Iio (1 / 2)) := by
  obtain ⟨r, h, -, -, h'⟩ := C24_lt_partial (halfAtom_cond (T := {1 / 2}) (by rintro c rfl; exact ⟨1, by norm_num, by norm_num⟩))
    exPar_exact (halfAtom_pos measurableSet_Iio le_rfl (by norm_num) (by norm_num) Ioo_subset_Iio_self) (by
      intro a m hm
      simp only [halfAtom, List.mem_cons, List.not_mem_nil, or_false, reduceCtorEq, Seg.dirac.injEq] at hm
      rw [hm.1]; norm_num) pole
  exact ⟨r, h, h'⟩

/-- **C24, `X | Between(L, U)`**, for distributions without atoms below `L` or above `U` (there may be atoms at `L` and `U`) -/
theorem C24_between_partial {L U : ℝ} (h : Args P f {L, U}) (hP : ExactQ P.q P.qp) (hLU : P.eps < U - L)
    (hA : PF.law f (Ioo L U) ≠ 0) (hlo : ∀ a m, Seg.dirac a m ∈ f → L ≤ a) (hhi : ∀ a m, Seg.dirac a m ∈ f → a ≤ U)
    (pole : ℝ → ℝ → Pole) :
    ∃ r, condBetween P pole f L U = some r ∧ PF.WF P.eps r ∧ PF.Dens r ∧
      PF.law r = ProbabilityTheory.cond (PF.law f) (Ioo L U) := by
  have := h.instProb
  have hlt : L < U := by have := h.eps; linarith
  obtain ⟨y, pre, m, mid, m', y1, z1, -, -, p1, -, -, h7, hm, hm', h4, h5, h6⟩ :=
    between_clip h hP (T := {L, U}) (by simp) (by simp) hLU hhi
  have hpre : pre = [] := by
    by_contra hne
    obtain ⟨s, hs⟩ := List.exists_mem_of_ne_nil _ hne
    obtain ⟨a, n, -, ha, k, hk⟩ := p1 s hs
    exact absurd ha (not_lt.2 (hlo a k hk))
  subst hpre
  have e : 1 - (m + m') = (PF.law f).real (Ioo L U) := by
    have hd : Disjoint (Iic L) (Ici U) := Set.disjoint_left.2 fun x h1 h2 => absurd (h2.trans h1) (not_le.2 hlt)
    rw [hm, hm', ← measureReal_union hd measurableSet_Ici, ← probReal_compl_eq_one_sub (measurableSet_Iic.union measurableSet_Ici)]
    congr 1
    ext x
    simp [not_or]
  have hp : 0 < 1 - (m + m') := by rw [e]; exact ENNReal.toReal_pos hA (measure_ne_top _ _)
  obtain ⟨r, r1, r2, r3, r4⟩ := rescale_spec h.eps hP pole h4 h5 (by
    rw [h6]; intro h0; exact hA (Measure.restrict_eq_zero.1 h0)) ((ends_mono (by simp +contextual)).trans h7) h.apart hp
  refine ⟨r, ?_, r2, r3, by rw [r4, h6, cond_eq hp e]⟩
  rw [condBetween, constDistr_eq, Option.bind_some, y1, Option.bind_some, constDistr_eq, Option.bind_some, z1, Option.bind_some,
    List.nil_append, List.head?_cons, Option.bind_some, List.tail_cons, List.getLast?_append, List.dropLast_concat]
  exact r1

/-- half atom at 0, half uniform on `[0, 1]`, given `0 < X < 1/2` -/
example (pole : ℝ → ℝ → Pole) : ∃ r, condBetween exPar pole halfAtom 0 (1 / 2) = some r ∧
    PF.law r = ProbabilityTheory.cond (PF.law halfAtom) (Ioo 0 (1 / 2)) := by
  obtain ⟨r, h, -, -, h'⟩ := C24_between_partial (halfAtom_cond (T := {0, 1 / 2}) (by
      rintro c (rfl | rfl)
      · exact ⟨0, by norm_num, by norm_num⟩
      · exact ⟨1, by norm_num, by norm_num⟩))
    exPar_exact (by norm_num [exPar]) (halfAtom_pos measurableSet_Ioo le_rfl (by norm_num) (by norm_num) subset_rfl) (by
      intro a m hm
      simp only [halfAtom, List.mem_cons, List.not_mem_nil, or_false, reduceCtorEq, Seg.dirac.injEq] at hm
      rw [hm.1]) (by
      intro a m hm
      simp only [halfAtom, List.mem_cons, List.not_mem_nil, or_false, reduceCtorEq, Seg.dirac.injEq] at hm
      rw [hm.1]; norm_num) pole
  exact ⟨r, h, h'⟩

/-- **C24, total mass 1 and no mass outside the condition**: a consequence of having the conditional law, for each of the
three conditions `A` -/
theorem C24_mass_outside {r : PF ℝ} {A : Set ℝ} (h : Args P f T) (hA : MeasurableSet A) (hp : PF.law f A ≠ 0)
    (hr : PF.law r = ProbabilityTheory.cond (PF.law f) A) :
    PF.law r univ = 1 ∧ PF.law r Aᶜ = 0 ∧
      ∀ B, MeasurableSet B → (PF.law r).real B = (PF.law f).real (A ∩ B) / (PF.law f).real A := by
  have := h.instProb
  have := ProbabilityTheory.cond_isProbabilityMeasure hp
  refine ⟨by rw [hr, measure_univ], by rw [hr, ProbabilityTheory.cond_apply hA]; simp, fun B hB => ?_⟩
  rw [hr, Measure.real, ProbabilityTheory.cond_apply hA, ENNReal.toReal_mul, ENNReal.toReal_inv, div_eq_inv_mul]; rfl

/-! ### disagreements -/

/-- **C24 fails for `X | Lt(U)` if there is an atom above `U`**: `MinDistr` keeps that atom with mass 0, it is the last piece
and is removed in place of the atom at `U`.  The result has the law of `min(X, U)`, in particular `U` has the probability
`P(X >= U)` instead of 0, although a conditional law given `X < U` exists. -/
theorem C24_finding_lt {U a : ℝ} (h : Args P f {U}) (hP : ExactQ P.q P.qp) (ha : U < a) (hat : PF.At f a) (pole : ℝ → ℝ → Pole) :
    ∃ r, condLt P pole f U = some r ∧ PF.law r = (PF.law f).map (min U) ∧ PF.law r {U} = PF.law f (Ici U) := by
  have := h.instProb
  have hφ : Measurable (min U) := measurable_const.min measurable_id
  obtain ⟨pre, m, post, h1, h3, h4, h5, h6, h7, h8, h9, h10⟩ := lt_clip h hP (mem_singleton U)
  obtain ⟨n, hn⟩ := h10 a ha hat
  obtain ⟨post', s, rfl⟩ : ∃ p s, post = p ++ [s] := ⟨post.dropLast, post.getLast (List.ne_nil_of_mem hn),
    (List.dropLast_append_getLast _).symm⟩
  obtain ⟨b, k, hb, rfl, -⟩ := h9 s (by simp)
  have e : pre ++ Seg.dirac U m :: (post' ++ [Seg.dirac b k]) = (pre ++ Seg.dirac U m :: post') ++ [Seg.dirac b k] := by simp
  rw [e] at h1 h4 h5 h7 h8
  have hk : k = 0 := by
    have h0 : PF.law ((pre ++ Seg.dirac U m :: post') ++ [Seg.dirac b k]) (Ioi U) = 0 := by
      rw [h8, Measure.map_apply hφ measurableSet_Ioi]
      convert measure_empty (μ := PF.law f)
      ext x; simp
    rw [PF.law_append, Measure.add_apply] at h0
    have h0 := (add_eq_zero.1 h0).2
    rw [const_law'] at h0
    simp only [Measure.smul_apply, smul_eq_mul, mul_eq_zero, ENNReal.ofReal_eq_zero] at h0
    rcases h0 with h0 | h0
    · exact le_antisymm h0 (h5 (.dirac b k) (by simp))
    · simp [hb] at h0
  subst hk
  have hl : PF.law (pre ++ Seg.dirac U m :: post') = (PF.law f).map (min U) := by
    rw [← h8, PF.law_append _ [Seg.dirac b 0], const_law']; simp
  have hsub : (pre ++ Seg.dirac U m :: post').Sublist ((pre ++ Seg.dirac U m :: post') ++ [Seg.dirac b 0]) := List.sublist_append_left _ _
  obtain ⟨r, r1, r2, r3, r4⟩ := rescale_spec (p := 1 - 0) h.eps hP pole (sub_wf hsub h4) (sub_dens hsub h5) (by
    rw [hl]
    intro h0
    have : (PF.law f).map (min U) univ = 0 := by rw [h0]; rfl
    rw [Measure.map_apply hφ MeasurableSet.univ, preimage_univ, h.prob] at this
    exact one_ne_zero this) ((ends_mono hsub.subset).trans h7) h.apart (by norm_num)
  have e4 : PF.law r = (PF.law f).map (min U) := by rw [r4, hl]; simp
  refine ⟨r, ?_, e4, ?_⟩
  · rw [condLt, constDistr_eq, Option.bind_some, h1, Option.bind_some, List.getLast?_append, List.dropLast_concat]
    exact r1
  · rw [e4, Measure.map_apply hφ (measurableSet_singleton _)]
    congr 1
    ext x; simp

/-- **C24 violated, concrete case**: a variable that is 0 or 2 with probability ½ each, given `X < 1`, should be 0; the computed
distribution gives 1 the probability ½ -/
theorem C24_violated_lt (pole : ℝ → ℝ → Pole) :
    ∃ r, condLt exPar pole coin 1 = some r ∧ PF.law r {1} = ENNReal.ofReal (1 / 2) ∧
      ProbabilityTheory.cond (PF.law coin) (Iio 1) {1} = 0 ∧ PF.law coin (Iio 1) ≠ 0 := by
  obtain ⟨r, h, -, h'⟩ := C24_finding_lt coin_cond exPar_exact (a := 2) (by norm_num) ⟨1 / 2, by simp [coin]⟩ pole
  refine ⟨r, h, ?_, ?_, ?_⟩
  · rw [h', coin_law]; simp
  · rw [ProbabilityTheory.cond_apply measurableSet_Iio]; simp
  · rw [coin_law]; simp

/-- **C24 fails for `X | Between(L, U)` if there is an atom below `L`** (and none above `U`): the atom of mass 0 that `MaxDistr`
leaves there is removed in place of the atom at `L`.  The result gives `L` the probability `P(X <= L) / P(X < U)`. -/
theorem C24_finding_between {L U a : ℝ} (h : Args P f {L, U}) (hP : ExactQ P.q P.qp) (hLU : P.eps < U - L)
    (hA : PF.law f (Iio U) ≠ 0) (ha : a < L) (hat : PF.At f a) (hone : ∀ b < L, PF.At f b → b = a)
    (hhi : ∀ a m, Seg.dirac a m ∈ f → a ≤ U) (pole : ℝ → ℝ → Pole) :
    ∃ r, condBetween P pole f L U = some r ∧ PF.law r {L} = PF.law f (Iic L) / PF.law f (Iio U) := by
  have := h.instProb
  have hlt : L < U := by have := h.eps; linarith
  obtain ⟨y, pre, m, mid, m', y1, z1, z2, z3, p1, p2, p3, h7, hm, hm', h4, h5, h6⟩ :=
    between_clip h hP (T := {L, U}) (by simp) (by simp) hLU hhi
  obtain ⟨n, hn⟩ := p2 a ha hat
  -- there is exactly one piece before `L`
  obtain ⟨k, pre', rfl⟩ : ∃ k p, pre = .dirac a k :: p := by
    cases pre with
    | nil => simp at hn
    | cons s p =>
      obtain ⟨b, k, rfl, hb, hb'⟩ := p1 s (by simp)
      obtain rfl := hone b hb hb'
      exact ⟨k, p, rfl⟩
  have hpre' : pre' = [] := by
    by_contra hne
    obtain ⟨s, hs⟩ := List.exists_mem_of_ne_nil _ hne
    obtain ⟨b, j, rfl, hb, hb'⟩ := p1 s (by simp [hs])
    obtain rfl := hone b hb hb'
    have := (List.pairwise_cons.1 z2.sorted).1 (.dirac b j) (by simp [hs])
    have := this.2 _ _ _ _ rfl rfl
    rw [sub_self, abs_zero] at this
    exact absurd this (not_lt.2 h.eps)
  subst hpre'
  have hk : k = 0 := by
    rw [const_law'] at p3
    have : (ENNReal.ofReal k • Measure.dirac a) univ = 0 := by rw [p3]; rfl
    simp only [Measure.smul_apply, measure_univ, smul_eq_mul, mul_one, ENNReal.ofReal_eq_zero] at this
    exact le_antisymm this (z3 (.dirac a k) (by simp))
  subst hk
  have e : 1 - (0 + m') = (PF.law f).real (Iio U) := by
    rw [hm', ← compl_Ici, probReal_compl_eq_one_sub measurableSet_Ici, zero_add]
  have hp : 0 < 1 - (0 + m') := by rw [e]; exact ENNReal.toReal_pos hA (measure_ne_top _ _)
  have hsub : (.dirac L m :: mid : PF ℝ).Sublist ([.dirac a 0] ++ .dirac L m :: (mid ++ [.dirac U m'])) :=
    (List.Sublist.cons_cons _ (List.sublist_append_left _ _)).trans (List.sublist_append_right _ _)
  have hL : PF.law (.dirac L m :: mid) {L} = PF.law f (Iic L) := by
    rw [PF.law_cons, Measure.add_apply, h6, Measure.restrict_apply (measurableSet_singleton _)]
    simp [Seg.law, hm]
  have hall : PF.law (.dirac L m :: mid) univ ≠ 0 := by
    rw [PF.law_cons, Measure.add_apply, h6, Measure.restrict_apply MeasurableSet.univ, univ_inter]
    intro h0
    obtain ⟨h0, h0'⟩ := add_eq_zero.1 h0
    refine hA ?_
    have : Iio U ⊆ Iic L ∪ Ioo L U := by
      intro x hx
      rcases le_or_gt x L with h' | h'
      · exact .inl h'
      · exact .inr ⟨h', hx⟩
    refine measure_mono_null this (measure_union_null ?_ h0')
    simpa [Seg.law, hm] using h0
  obtain ⟨r, r1, r2, r3, r4⟩ := rescale_spec h.eps hP pole (sub_wf hsub z2) (sub_dens hsub z3) (fun h0 => hall (by rw [h0]; rfl))
    ((ends_mono hsub.subset).trans h7) h.apart hp
  refine ⟨r, ?_, ?_⟩
  · rw [condBetween, constDistr_eq, Option.bind_some, y1, Option.bind_some, constDistr_eq, Option.bind_some, z1, Option.bind_some,
      List.singleton_append, List.head?_cons, Option.bind_some, List.tail_cons,
      show Seg.dirac L m :: (mid ++ [Seg.dirac U m']) = (Seg.dirac L m :: mid) ++ [Seg.dirac U m'] by simp,
      List.getLast?_append, List.dropLast_concat]
    exact r1
  · rw [r4, Measure.smul_apply, hL, smul_eq_mul, one_div, ENNReal.ofReal_inv_of_pos hp, e, ofReal_measureReal, mul_comm, div_eq_mul_inv]

/-- **C24 violated, concrete case**: half atom at 0, half uniform on `[0, 1]`, given `1/2 < X < 1`: the computed distribution
gives 1/2 a positive probability -/
theorem C24_violated_between (pole : ℝ → ℝ → Pole) :
    ∃ r, condBetween exPar pole halfAtom (1 / 2) 1 = some r ∧ PF.law r {1 / 2} ≠ 0 ∧
      ProbabilityTheory.cond (PF.law halfAtom) (Ioo (1 / 2) 1) {1 / 2} = 0 ∧ PF.law halfAtom (Ioo (1 / 2) 1) ≠ 0 := by
  have h := halfAtom_cond (T := {1 / 2, 1}) (by
      rintro c (rfl | rfl)
      · exact ⟨1, by norm_num, by norm_num⟩
      · exact ⟨2, by norm_num, by norm_num⟩)
  have := h.instProb
  obtain ⟨r, h1, h2⟩ := C24_finding_between h exPar_exact (a := 0) (by norm_num [exPar])
    (halfAtom_pos measurableSet_Iio le_rfl one_pos le_rfl Ioo_subset_Iio_self) (by norm_num) ⟨1 / 2, by simp [halfAtom]⟩ (by
      rintro b - ⟨m, hm⟩
      simp only [halfAtom, List.mem_cons, List.not_mem_nil, or_false, reduceCtorEq, Seg.dirac.injEq] at hm
      exact hm.1) (by
      intro a m hm
      simp only [halfAtom, List.mem_cons, List.not_mem_nil, or_false, reduceCtorEq, Seg.dirac.injEq] at hm
      rw [hm.1]; norm_num) pole
  refine ⟨r, h1, ?_, ?_, halfAtom_pos measurableSet_Ioo (by norm_num) (by norm_num) le_rfl subset_rfl⟩
  · rw [h2]
    exact ENNReal.div_ne_zero.2 ⟨halfAtom_pos (u := 0) (v := 1 / 2) measurableSet_Iic le_rfl (by norm_num) (by norm_num)
      fun x hx => hx.2.le, measure_ne_top _ _⟩
  · rw [ProbabilityTheory.cond_apply measurableSet_Ioo]; simp

end Cond
end Pacal
