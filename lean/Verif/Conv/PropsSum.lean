import Verif.Conv.SumExample

/-!
# Properties C10 (discrete arithmetic), C12 (sums and differences), C16 (pieces chosen for an integration)

`opLaw op μ ν` is the law of `op X Y` for independent `X ∼ μ`, `Y ∼ ν`; `pairMass`, `sumDensity` and the conditions on the
arguments are in `Conv/Spec.lean`, `Conv/SumDensity.lean` and `SumArgs` (`Conv/SumLemmas.lean`).
-/

namespace Pacal
namespace Conv
open MeasureTheory Set Transform Breaks

/-! ### C10 -/

/-- **C10.** The discrete part computed for `X op Y`: the probability of `x` is the sum of `P(X = a) P(Y = b)` over all
`a op b = x` (for any operation, provided different results are farther apart than the tolerance under which atoms are
merged). -/
theorem C10_atoms_partial {K : Type*} [Field K] [LinearOrder K] [IsStrictOrderedRing K] {eps : K} (he : 0 ≤ eps) (op : K → K → K)
    (f g : PF K)
    (hap : ∀ p ∈ f.atomsOf, ∀ q ∈ g.atomsOf, ∀ p' ∈ f.atomsOf, ∀ q' ∈ g.atomsOf, op p.1 q.1 ≠ op p'.1 q'.1 →
      eps < |op p.1 q.1 - op p'.1 q'.1|) :
    ∃ r, convdiracs eps op f g = some r ∧ PF.WF eps r ∧ (∀ s ∈ r, s.isDirac = true) ∧
      ∀ x, r.massAt x = pairMass op f g x :=
  convdiracs_mass he op f g hap

/-- **C10** fails for results which are closer than the tolerance: if `X` is 0 or `2 eps` with probability 1/2 and `Y` is 1/4,
the product is 0 or `eps / 2` with probability 1/2 each; the code reports the value 0 with probability 1. -/
theorem C10_violated_merge {K : Type*} [Field K] [LinearOrder K] [IsStrictOrderedRing K] {eps : K} (he : 0 < eps) :
    let f : PF K := [.dirac 0 (1 / 2), .dirac (2 * eps) (1 / 2)]
    let g : PF K := [.dirac (1 / 4) 1]
    PF.WF eps f ∧ PF.WF eps g ∧ convdiracs eps (· * ·) f g = some [.dirac 0 1] ∧
      pairMass (· * ·) f g 0 = 1 / 2 ∧ pairMass (· * ·) f g (eps / 2) = 1 / 2 := by
  intro f g
  have h1 : (0 : K) ≠ 2 * eps * (1 / 4) := by positivity
  have h2 : |2 * eps * (1 / 4) - 0| ≤ eps := by
    rw [sub_zero, abs_of_pos (by positivity)]; linarith
  have h3 : 2 * eps * (1 / 4) = eps / 2 := by ring
  refine ⟨⟨?_, ?_⟩, ⟨?_, ?_⟩, ?_, ?_, ?_⟩
  · simp [f, Seg.WF]
  · simp only [f, List.pairwise_cons, List.mem_cons, List.not_mem_nil, or_false, forall_eq]
    refine ⟨⟨Ext.fin_le_fin.2 (by positivity), ?_⟩, by simp, .nil⟩
    rintro a m a' m' h1 h2
    cases h1; cases h2
    rw [zero_sub, abs_neg, abs_of_pos (by positivity)]; linarith
  · simp [g, Seg.WF]
  · simp [g]
  · have e : diracTable (· * ·) f g = [(0, 1 / 2), (2 * eps * (1 / 4), 1 / 2)] := by
      simp [diracTable, pairsBy, f, g, Seg.isDirac, dictAdd, he.ne']
    rw [convdiracs, e]
    simp only [List.map_cons, List.map_nil, PF.addAll]
    have e1 : PF.addSegment eps [] (.dirac 0 (1 / 2)) = some [.dirac 0 (1 / 2)] := rfl
    rw [e1, Option.bind_some]
    have e2 : PF.addSegment eps [.dirac 0 (1 / 2)] (.dirac (2 * eps * (1 / 4)) (1 / 2)) = some [.dirac 0 (1 / 2 + 1 / 2)] := by
      simp only [PF.addSegment, PF.mergeDirac, if_pos h2]
    rw [e2, Option.bind_some]; norm_num
  · simp [pairMass, f, g, PF.atomsOf, he.ne']
  · have h4 : 2 * eps * 4⁻¹ = eps / 2 := by rw [← h3]; ring
    have h5 : (0 : K) ≠ eps / 2 := by positivity
    simp [pairMass, f, g, PF.atomsOf, h4, h5]

/-- the total mass of the discrete part is the product of the total masses, whatever is merged -/
theorem C10_total {K : Type*} [Field K] [LinearOrder K] {eps : K} (op : K → K → K) (f g : PF K) {r : PF K}
    (h : convdiracs eps op f g = some r) : r.atomMass = f.atomMass * g.atomMass := by
  have h1 := addAll_mass h
  rw [h1, List.map_map]
  obtain ⟨t1, -⟩ := diracTable_spec (Φ := fun kv : K × K => kv.2) (N := fun _ => True) (by simp) (by simp) op f g (by simp)
  have e : (Seg.mass ∘ fun kv : K × K => (Seg.dirac kv.1 kv.2 : Seg K)) = fun kv => kv.2 := rfl
  rw [e, t1]
  have hz : PF.atomMass ([] : PF K) = 0 := rfl
  rw [hz, add_zero]
  unfold sum2 PF.atomMass
  have key : ∀ s : Seg K, (g.map fun sj => atomPair (fun kv : K × K => kv.2) op s sj).sum = s.mass * (g.map Seg.mass).sum := by
    intro s
    rw [← List.sum_map_mul_left]
    congr 1
    refine List.map_congr_left fun t _ => ?_
    cases s <;> cases t <;> simp [atomPair, Seg.mass]
  simp only [key]
  rw [List.sum_map_mul_right]

/-- two fair coins: 0, 1, 2 with probabilities 1/4, 1/2, 1/4 -/
example : let c : PF ℚ := [.dirac 0 (1 / 2), .dirac 1 (1 / 2)]
    pairMass (· + ·) c c 1 = 1 / 2 ∧ (convdiracs (1 / 10 ^ 14) (· + ·) c c).map (PF.massAt · 1) = some (1 / 2) := by
  decide +kernel

/-! ### C16 -/

/-- **C16** for sums: between two consecutive break points of the result, the list of pairs found for any point `z` is the
list of pairs of pieces containing points that add up to `x`, for every `x` between the same break points. -/
theorem C16_sum_partial {P : Par} {f g : PF ℝ} (h : SumArgs P f g) {a b : Ext ℝ} (hab : [a, b] <:+: resBreaks P f g) {x z : ℝ}
    (hx : x ∈ interE a b) (hz : z ∈ interE a b) (si sj : Seg ℝ) :
    (si, sj) ∈ findSegListAdd f g z ↔ si ∈ f ∧ sj ∈ g ∧ ∃ s ∈ si.points, ∃ t ∈ sj.points, s + t = x := by
  rw [findSegListAdd, mem_pairsBy, decide_eq_true_eq]
  refine and_congr_right fun hi' => and_congr_right fun hj => ?_
  refine (h.same hab hx hz hi' hj).trans ?_
  have hpt : ∀ {s : Seg ℝ}, s.isDirac = false → s.points = s.inner := by
    intro s hs; cases s <;> first | rfl | simp [Seg.isDirac] at hs
  rcases isDirac_cases si with hsi | ⟨p, m, rfl⟩
  · rcases isDirac_cases sj with hsj | ⟨q, n, rfl⟩
    · rw [hpt hsi, hpt hsj]
      constructor
      · intro hm
        obtain ⟨t, h1, h2⟩ := EReal.lt_iff_exists_real_btwn.1 (Lx_lt_Ux (lo_lt_hi hsi (h.fwf.seg _ hi')) (lo_lt_hi hsj (h.gwf.seg _ hj)) hm)
        refine ⟨t, ⟨(le_max_left _ _).trans_lt h1, h2.trans_le (min_le_left _ _)⟩, x - t, ?_, by ring⟩
        rw [mem_inner]
        exact ⟨(lt_sub_iff' _ _ _).2 (h2.trans_le (min_le_right _ _)), (sub_lt_iff' _ _ _).2 ((le_max_right _ _).trans_lt h1)⟩
      · rintro ⟨s, hs, t, ht, rfl⟩
        exact Meets.of_mem hs (by rwa [add_sub_cancel_left])
    · rw [hpt hsi]
      have e : Meets x si (.dirac q n) ↔ x - q ∈ si.inner := ⟨fun hm => meets_dirac.1 hm.symm, fun hm => (meets_dirac.2 hm).symm⟩
      rw [e]
      constructor
      · intro hm; exact ⟨x - q, hm, q, rfl, by ring⟩
      · rintro ⟨s, hs, t, rfl, rfl⟩; rwa [add_sub_cancel_right]
  · rcases isDirac_cases sj with hsj | ⟨q, n, rfl⟩
    · rw [hpt hsj, meets_dirac]
      constructor
      · intro hm; exact ⟨p, rfl, x - p, hm, by ring⟩
      · rintro ⟨s, rfl, t, ht, rfl⟩; rwa [add_sub_cancel_left]
    · rw [meets_dirac]
      constructor
      · rintro ⟨h1, h2⟩; exact absurd (h1.trans h2) (lt_irrefl _)
      · rintro ⟨s, rfl, t, rfl, rfl⟩
        exfalso
        have hc := h.mem_fin (mem_breaksExt h.fwf h.fhole hi').1 (mem_breaksExt h.gwf h.ghole hj).1
        rcases infix_between h.breaks.1 hab hc with h1 | h1
        · exact absurd hx.1 (not_lt.2 h1)
        · exact absurd hx.2 (not_lt.2 h1)

/-! ### C12 -/

/-- **C12, law.** With exact integration on each pair of pieces, the distribution computed for `X + Y` is the law of the
sum of independent `X` and `Y`: any number of pieces, poles, infinite ends and atoms. -/
theorem C12_law_partial {P : Par} {f g : PF ℝ} (h : SumArgs P f g) (hP : ExactQ P.q P.qp) (hf : PF.Dens f) (hg : PF.Dens g)
    (pole : ℝ → ℝ → Pole) :
    ∃ r, conv P pole f g = some r ∧ PF.WF P.eps r ∧ PF.Dens r ∧ PF.law r = opLaw (· + ·) (PF.law f) (PF.law g) := by
  obtain ⟨r, r1, r2, r3, r4, -⟩ := conv_spec h hP hf hg pole
  exact ⟨r, r1, r2, r3, r4⟩


/-- **C12, density.** The density is the convolution integral plus, for every atom, the shifted density of the other
argument (at almost every point). -/
theorem C12_density_partial {P : Par} {f g : PF ℝ} (h : SumArgs P f g) (hP : ExactQ P.q P.qp) (hf : PF.Dens f) (hg : PF.Dens g)
    (pole : ℝ → ℝ → Pole) : ∃ r, conv P pole f g = some r ∧ ∀ᵐ x, r.val x = sumDensity f g x := by
  obtain ⟨r, r1, -, -, -, r5⟩ := conv_spec h hP hf hg pole
  refine ⟨r, r1, ?_⟩
  filter_upwards [r5, sum2_pairK hf hg] with x h1 h2
  rw [h1, h2]

/-- **C12 for differences** -/
theorem C12_sub_partial {P : Par} {f g : PF ℝ} (hP : ExactQ P.q P.qp) (h1 : 0 ≤ P.eps) (h2 : 0 ≤ P.brkEps) (hf0 : f ≠ [])
    (hg0 : g ≠ []) (hf : PF.WF P.eps f) (hg : PF.WF P.eps g) (hfh : f.NoHole) (hgh : g.NoHoleRight)
    (hap : Apart (· - ·) (max P.brkEps P.eps) f g) (hfd : PF.Dens f) (hgd : PF.Dens g) (pole : ℝ → ℝ → Pole) :
    ∃ r, sub P pole f g = some r ∧ PF.WF P.eps r ∧ PF.Dens r ∧ PF.law r = opLaw (· - ·) (PF.law f) (PF.law g) := by
  obtain ⟨g', e1, e2, e3⟩ := reflect_perm h1 hg
  obtain ⟨g'', e4, -, e6, e7⟩ := C18_law_partial h1 (scale := -1) (by norm_num) 0 (by simpa using hg) hgd
  rw [shiftedScaled, if_pos (by norm_num), e1] at e4
  cases e4
  have harg : SumArgs P f g' := ⟨h1, h2, hf0, by rintro rfl; exact hg0 (by simpa using e2), hf, e3, hfh, reflect_noHole e2 hgh, by
    intro a ha b hb a' ha' b' hb' hne
    have := hap a ha _ (reflect_ends e2 hb) a' ha' _ (reflect_ends e2 hb') (by simpa using hne)
    simpa using this⟩
  obtain ⟨r, r1, r2, r3, r4⟩ := C12_law_partial harg hP hfd e6 pole
  have := PF.law_finite hfd
  have := PF.law_finite hgd
  refine ⟨r, ?_, r2, r3, ?_⟩
  · rw [sub, e1, Option.bind_some, r1]
  · rw [r4, e7, opLaw_neg]

/-- total mass -/
theorem C12_mass {P : Par} {f g : PF ℝ} (h : SumArgs P f g) (hP : ExactQ P.q P.qp) (hf : PF.Dens f) (hg : PF.Dens g)
    (pole : ℝ → ℝ → Pole) : ∃ r, conv P pole f g = some r ∧ PF.law r univ = PF.law f univ * PF.law g univ := by
  obtain ⟨r, r1, -, -, r4⟩ := C12_law_partial h hP hf hg pole
  have := PF.law_finite hg
  refine ⟨r, r1, ?_⟩
  rw [r4, opLaw, Measure.map_apply measurable_sum MeasurableSet.univ, preimage_univ, ← univ_prod_univ, Measure.prod_prod]

/-! ### a gap in the support -/

/-- **C12 violated by a gap in the support**: the start of a piece after a gap is not among the break points, so adding
the constant 0 (as a random variable) to the mixture of the uniform distributions on `[0, 1]` and `[3, 4]` loses everything
right of 1: `P(X + 0 > 2)` comes out as 0 instead of 1/2. -/
theorem C12_violated_gap {P : Par} (h0 : 0 ≤ P.eps) (h1 : 0 ≤ P.brkEps) (h2 : P.brkEps < 1) :
    PF.WF P.eps gapMix ∧ PF.Dens gapMix ∧
    ∃ r, conv P (fun _ _ => .none) gapMix [.dirac 0 1] = some r ∧ (PF.law r).real (Ioi 2) = 0 ∧
      (opLaw (· + ·) (PF.law gapMix) (PF.law [.dirac 0 1])).real (Ioi 2) = 1 / 2 := by
  have hd : PF.Dens gapMix := dens_pair (const_dens _ _ (by norm_num)) (const_dens _ _ (by norm_num))
  refine ⟨wf_pair (by norm_num [Seg.WF]) (by norm_num [Seg.WF]) ⟨extFin_le.2 (by norm_num), by intro a m a' m' h; cases h⟩, hd, ?_⟩
  have hr := gap_breaks h1 h2
  unfold resBreaks at hr
  have hF : ∀ x, sumAt P gapMix [.dirac 0 1] ((1 + 4) / 2) x = 0 := by
    intro x
    have e : findSegListAdd gapMix [.dirac 0 1] ((1 + 4) / 2) = [] := by
      refine List.eq_nil_iff_forall_not_mem.2 fun pr hpr => ?_
      rw [findSegListAdd, mem_pairsBy, decide_eq_true_eq] at hpr
      obtain ⟨m1, m2, m3, m4⟩ := hpr
      obtain ⟨a, b⟩ := pr
      obtain rfl := List.mem_singleton.1 m2
      simp only [gapMix, List.mem_cons, List.not_mem_nil, or_false] at m1
      rcases m1 with rfl | rfl
      · have : ((((1 + 4) / 2 : ℝ) : EReal) - ((1 : ℝ) : EReal)) < ((0 : ℝ) : EReal) := m4
        rw [← EReal.coe_sub, EReal.coe_lt_coe_iff] at this
        norm_num at this
      · have : ((0 : ℝ) : EReal) < (((1 + 4) / 2 : ℝ) : EReal) - ((3 : ℝ) : EReal) := m3
        rw [← EReal.coe_sub, EReal.coe_lt_coe_iff] at this
        norm_num at this
    rw [sumAt, e]; rfl
  obtain ⟨u, hu⟩ : ∃ u, u = sumAt P gapMix [.dirac 0 1] ((0 + 1) / 2) := ⟨_, rfl⟩
  obtain ⟨v, hv⟩ : ∃ v, v = sumAt P gapMix [.dirac 0 1] ((1 + 4) / 2) := ⟨_, rfl⟩
  have hps : pieces (fun _ _ => .none) (sumAt P gapMix [.dirac 0 1]) [.fin 0, .fin 1, .fin 4] =
      [.fin .none 0 1 u, .fin .none 1 4 v] := by rw [hu, hv]; rfl
  obtain ⟨r, r1, r2, -⟩ := addAll_wf h0 [Seg.fin .none 0 1 u, .fin .none 1 4 v] [] ⟨by simp, List.Pairwise.nil⟩
    (by simp [Seg.WF]) (by
      simp only [List.pairwise_cons, List.mem_singleton, forall_eq, List.not_mem_nil, false_imp_iff, implies_true, List.Pairwise.nil, and_true]
      exact .inl ⟨extFin_le.2 le_rfl, by intro a m a' m' h; cases h⟩) (by simp)
  refine ⟨r, ?_, ?_, ?_⟩
  · rw [conv, hr, hps, r1]; rfl
  · rw [List.append_nil] at r2
    have z : PF.law r (Ioi 2) = 0 := by
      rw [law_perm r2]
      simp only [PF.law, List.map_cons, List.map_nil, List.sum_cons, List.sum_nil, add_zero, Measure.add_apply]
      rw [law_zero_of rfl measurableSet_Ioi, law_zero_of rfl measurableSet_Ioi, add_zero]
      · intro x _; rw [fin_val, hv, hF]; simp
      · intro x hx; rw [fin_val, if_neg fun h => absurd h.2 (by have : 2 < x := hx; linarith)]
    rw [Measure.real, z]; rfl
  · have := PF.law_finite hd
    have e : PF.law [Seg.dirac (0 : ℝ) 1] = ENNReal.ofReal 1 • Measure.dirac 0 := by simp [PF.law, Seg.law]
    have hd0 : PF.Dens [Seg.dirac (0 : ℝ) 1] := by simp [PF.Dens, Seg.Dens]
    have := PF.law_finite hd0
    rw [opLaw_add_comm, e, opLaw_dirac_left measurable_sum]
    have e2 : (HAdd.hAdd (0 : ℝ) : ℝ → ℝ) = id := by funext x; simp
    rw [e2, Measure.map_id, ENNReal.ofReal_one, one_smul]
    unfold gapMix at hd ⊢
    rw [law_pair hd, const_law_out _ _ (by norm_num) measurableSet_Ioi, const_law_in _ _ (by norm_num) (by norm_num) measurableSet_Ioi]
    · norm_num
    · intro x h _; have : (3 : ℝ) ≤ x := h; exact lt_of_lt_of_le (by norm_num) this
    · rintro x h ⟨-, h'⟩; have : 2 < x := h; linarith

/-! ### non-vacuity -/

/-- the sum of two independent copies of a mixture of an atom and a uniform distribution -/
example : ∃ r, conv exPar (fun _ _ => .none) halfAtom halfAtom = some r ∧ PF.Dens r ∧
    PF.law r = opLaw (· + ·) (PF.law halfAtom) (PF.law halfAtom) ∧ (PF.law halfAtom).real univ = 1 := by
  obtain ⟨r, h1, -, h3, h4⟩ := C12_law_partial halfAtom_args exPar_exact halfAtom_dens halfAtom_dens fun _ _ => .none
  refine ⟨r, h1, h3, h4, ?_⟩
  unfold halfAtom
  rw [law_pair halfAtom_dens, const_mass _ _ (by norm_num) (by norm_num), Seg.law_real_dirac (by norm_num) MeasurableSet.univ]
  norm_num

end Conv
end Pacal
