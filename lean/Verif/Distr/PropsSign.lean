import Verif.Distr.PropsDiscrete
import Verif.Push.CompLemmas
import Mathlib.Data.Real.Sign

/-!
`sign(X)` (C26) and the probability of exceeding a value (C59).  The full property has no hypothesis `PF.Touching`; it
fails without it because the CDF does (C07), see `C26_violated_gap`.
-/

namespace Pacal
open MeasureTheory Set Transform

/-- **C59**, scalar: `ccdf_value(x)` is `P(X > x)`, on both branches (integration of the right tail, and one minus the
CDF). -/
theorem C59_ccdf_value_partial {eps : ℝ} (he : 0 ≤ eps) {q : Quad} {p : QPar} (h : ExactQ q p) {l : PF ℝ} (hne : l ≠ [])
    (hw : PF.WF eps l) (hd : PF.Dens l) (ht : PF.Touching l) (h1 : PF.law l univ = 1) (x : ℝ) :
    PF.ccdfValue eps q p l x = some ((PF.law l).real (Ioi x)) := by
  have : IsProbabilityMeasure (PF.law l) := ⟨h1⟩
  have hc := C07_cdf_partial he h hne hw hd ht x
  have key : (PF.cdf eps q p l x).map (fun c => 1 - c) = some ((PF.law l).real (Ioi x)) := by
    rw [hc, Option.map_some, ← compl_Iic, probReal_compl_eq_one_sub measurableSet_Iic]
  unfold PF.ccdfValue
  cases hl : l.getLast? with
  | none => simp [hne] at hl
  | some s =>
    cases s with
    | pinf a f =>
      simp only
      split_ifs with hx
      · exact key
      · obtain ⟨l', rfl⟩ := List.getLast?_eq_some_iff.1 hl
        have hda : (Seg.pinf a f).Dens := hd _ (by simp)
        have hfin := Seg.law_finite hda
        have hd' : PF.Dens l' := fun s hs => hd s (by simp [hs])
        have hfin' := PF.law_finite hd'
        have hhi : ∀ t ∈ l', t.hi ≤ .fin a := fun t ht => ((wf_append hw).2.2 t ht (.pinf a f) (by simp)).1
        have hz : PF.law l' (Ioi x) = 0 := by
          refine law_null measurableSet_Ioi ?_ ?_
          · intro s hs _ y hy hyx
            have h3 : Ext.fin y < Ext.fin a := lt_of_lt_of_le hy.2 (hhi s hs)
            exact absurd (ext_lt.1 h3) (not_lt.2 ((not_le.1 hx).le.trans (mem_Ioi.1 hyx).le))
          · intro b m hb hbx
            have h3 : Ext.fin b ≤ Ext.fin a := hhi _ hb
            exact absurd (ext_le.1 h3) (not_le.2 ((not_le.1 hx).trans (mem_Ioi.1 hbx)))
        congr 1
        rw [pinf_integrate_ivl h, ivl_coe_top, PF.law_append]
        show _ = (PF.law l' + PF.law [Seg.pinf a f]).real (Ioi x)
        have e : PF.law [Seg.pinf a f] = (Seg.pinf a f).law := by simp [PF.law]
        rw [e, measureReal_add_apply, Seg.law_real rfl hda measurableSet_Ioi]
        simp [Measure.real, hz]
    | _ => exact key

/-- one piece of `r - f` -/
def rsubSeg (r : ℝ) : Seg ℝ → Seg ℝ
  | .minf b f => .minf b (fun x => r - f x)
  | .pinf a f => .pinf a (fun x => r - f x)
  | .fin pole a b f => .fin pole a b (fun x => r - f x)
  | .const a b c => .fin .none a b (fun _ => r - c)
  | .dirac a m => .dirac a (r - m)

theorem pick_rsub (r x : ℝ) : ∀ {c : PF ℝ}, (∀ s ∈ c, s.isDirac = false) →
    pick x (c.map (rsubSeg r)) = (pick x c).map (r - ·)
  | [], _ => rfl
  | s :: c, h => by
    have ih := pick_rsub r x (c := c) fun t ht => h t (by simp [ht])
    have hhi : (rsubSeg r s).hi = s.hi := by cases s <;> rfl
    have hfn : (rsubSeg r s).fn x = r - s.fn x := by
      have := h s (by simp)
      cases s <;> rfl
    simp only [List.map_cons, pick, hhi, ih]
    split_ifs
    · rw [hfn]; rfl
    · rfl

/-- **C59**: the function `ccdf` is built and its value at `x` is `P(X > x)`. -/
theorem C59_ccdf_partial {eps : ℝ} (he : 0 ≤ eps) {q : Quad} {p : QPar} (h : ExactQ q p) {l : PF ℝ} (hne : l ≠ [])
    (hw : PF.WF eps l) (hd : PF.Dens l) (ht : PF.Touching l) (h1 : PF.law l univ = 1) (x : ℝ) :
    PF.ccdf eps q p l x = some ((PF.law l).real (Ioi x)) := by
  have hprob : IsProbabilityMeasure (PF.law l) := ⟨h1⟩
  obtain ⟨c, hc, hcw, hcn, hch, hpick⟩ := cumint_pick he h hne hw hd ht
  have hlo : ∀ s : Seg ℝ, (rsubSeg 1 s).lo = s.lo := by intro s; cases s <;> rfl
  have hhi : ∀ s : Seg ℝ, (rsubSeg 1 s).hi = s.hi := by intro s; cases s <;> rfl
  have hdi : ∀ s : Seg ℝ, (rsubSeg 1 s).isDirac = s.isDirac := by intro s; cases s <;> rfl
  have hw' : PF.WF eps (c.map (rsubSeg 1)) := by
    refine ⟨?_, ?_⟩
    · intro s hs
      obtain ⟨t, ht, rfl⟩ := List.mem_map.1 hs
      have := hcw.seg t ht
      cases t <;> exact this
    · rw [List.pairwise_map]
      refine (List.Pairwise.and_mem.1 hcw.sorted).imp fun {s t} h => ⟨by rw [hhi, hlo]; exact h.2.2.1, ?_⟩
      intro a m a' m' e1 e2
      have := hdi s
      rw [e1, hcn s h.1] at this
      simp [Seg.isDirac] at this
  have hn' : ∀ s ∈ c.map (rsubSeg 1), s.isDirac = false := by
    intro s hs
    obtain ⟨t, ht, rfl⟩ := List.mem_map.1 hs
    rw [hdi]; exact hcn t ht
  rw [PF.ccdf, hc, Option.bind_some]
  have e : PF.rsubReal eps c 1 = some (c.map (rsubSeg 1)) := by
    refine Eq.trans ?_ (addAll_self he hw')
    unfold PF.rsubReal PF.roperation
    congr 1
    refine List.map_congr_left fun s _ => ?_
    cases s <;> rfl
  rw [e, Option.bind_some]
  refine evalScalar_pick hw' hn' ?_ ?_
  · intro s hs
    rw [List.head?_map] at hs
    obtain ⟨t, ht, rfl⟩ := Option.map_eq_some_iff.1 hs
    rw [hlo]; exact hch t ht
  · rw [pick_rsub 1 x hcn, hpick, Option.map_some, ← compl_Iic, probReal_compl_eq_one_sub measurableSet_Iic]

theorem sign_measurable : Measurable Real.sign := by
  unfold Real.sign
  exact Measurable.ite measurableSet_Iio measurable_const (Measurable.ite measurableSet_Ioi measurable_const measurable_const)

theorem map_sign (μ : Measure ℝ) : μ.map Real.sign =
    μ (Iio 0) • Measure.dirac (-1) + (μ {0} • Measure.dirac 0 + μ (Ioi 0) • Measure.dirac 1) := by
  ext A hA
  rw [Measure.map_apply sign_measurable hA]
  have hS : MeasurableSet (Real.sign ⁻¹' A) := sign_measurable hA
  have part : μ (Real.sign ⁻¹' A) = μ (Real.sign ⁻¹' A ∩ Iio 0) + (μ (Real.sign ⁻¹' A ∩ {0}) + μ (Real.sign ⁻¹' A ∩ Ioi 0)) := by
    rw [← measure_inter_add_sdiff _ (measurableSet_Iio (a := (0 : ℝ))),
      ← measure_inter_add_sdiff (Real.sign ⁻¹' A \ Iio 0) (measurableSet_singleton (0 : ℝ))]
    congr 2
    · congr 1; ext x; simp only [mem_inter_iff, mem_sdiff, mem_Iio, mem_singleton_iff]
      constructor
      · rintro ⟨⟨a, -⟩, b⟩; exact ⟨a, b⟩
      · rintro ⟨a, b⟩; exact ⟨⟨a, by simp [b]⟩, b⟩
    · congr 1; ext x; simp only [mem_inter_iff, mem_sdiff, mem_Iio, mem_singleton_iff, mem_Ioi]
      constructor
      · rintro ⟨⟨a, b⟩, c⟩; exact ⟨a, lt_of_le_of_ne (not_lt.1 b) (Ne.symm c)⟩
      · rintro ⟨a, b⟩; exact ⟨⟨a, not_lt.2 b.le⟩, b.ne'⟩
  rw [part]
  simp only [Measure.add_apply, Measure.smul_apply, Measure.dirac_apply' _ hA, smul_eq_mul]
  have one : ∀ (B : Set ℝ) (c : ℝ), (∀ x ∈ B, Real.sign x = c) → μ (Real.sign ⁻¹' A ∩ B) = μ B * A.indicator 1 c := by
    intro B c hB
    by_cases hc : c ∈ A
    · have : Real.sign ⁻¹' A ∩ B = B := inter_eq_right.2 fun x hx => by rw [mem_preimage, hB x hx]; exact hc
      simp [this, hc]
    · have : Real.sign ⁻¹' A ∩ B = ∅ := by
        ext x; simp only [mem_inter_iff, mem_preimage, mem_empty_iff_false, iff_false, not_and]
        intro h1 h2; rw [hB x h2] at h1; exact hc h1
      simp [this, hc]
  rw [one (Iio 0) (-1) fun x hx => Real.sign_of_neg hx, one {0} 0 (by rintro x rfl; exact Real.sign_zero),
    one (Ioi 0) 1 fun x hx => Real.sign_of_pos hx]

/-- **C26.** The distribution of `sign(X)` is built and is exactly the law of `sign(X)`: its atoms are -1, 0, 1 with
probabilities `P(X<0)`, `P(X=0)`, `P(X>0)`, which sum to 1. -/
theorem C26_sign_partial {eps : ℝ} (he : 0 ≤ eps) (he1 : eps < 1) {q : Quad} {p : QPar} (h : ExactQ q p) {l : PF ℝ}
    (hne : l ≠ []) (hw : PF.WF eps l) (hd : PF.Dens l) (ht : PF.Touching l) (h1 : PF.law l univ = 1) :
    ∃ r, signDistr eps q p l = some r ∧ PF.law r = (PF.law l).map Real.sign ∧
      (PF.law r).real {-1} = (PF.law l).real (Iio 0) ∧ (PF.law r).real {0} = (PF.law l).real {0} ∧
      (PF.law r).real {1} = (PF.law l).real (Ioi 0) ∧ PF.law r univ = 1 := by
  have hprob : IsProbabilityMeasure (PF.law l) := ⟨h1⟩
  have hm : (PF.getDirac 0 l).getD 0 = (PF.law l).real {0} := by
    rw [law_singleton hd, massAt_eq_getDirac he hw]
    cases PF.getDirac 0 l <;> rfl
  have hsub : (PF.law l).real (Iic 0) - (PF.law l).real {0} = (PF.law l).real (Iio 0) := by
    rw [← Iio_union_right, measureReal_union (by simp) (measurableSet_singleton _)]
    ring
  have hof : ∀ A, ENNReal.ofReal ((PF.law l).real A) = PF.law l A := fun A => ENNReal.ofReal_toReal (measure_ne_top _ _)
  obtain ⟨r, hr, hlaw⟩ : ∃ r, signDistr eps q p l = some r ∧ PF.law r = (PF.law l).map Real.sign := by
    rw [signDistr, signTable, C59_ccdf_value_partial he h hne hw hd ht h1, C07_cdf_partial he h hne hw hd ht]
    simp only [Option.bind_some, Option.map_some, hm, hsub]
    rw [map_sign]
    split_ifs with h0
    · obtain ⟨r, h1, -, -, h2⟩ := C25_law_partial he (t := [(-1, (PF.law l).real (Iio 0)), (0, (PF.law l).real {0}),
        (1, (PF.law l).real (Ioi 0))]) (by simp; norm_num; exact ⟨⟨he1, by linarith⟩, he1⟩) (by simp)
      exact ⟨r, h1, by rw [h2]; simp [hof]⟩
    · have h0' : (PF.law l).real {0} = 0 := le_antisymm (not_lt.1 h0) measureReal_nonneg
      obtain ⟨r, h1, -, -, h2⟩ := C25_law_partial he (t := [(-1, (PF.law l).real (Iio 0)),
        (1, (PF.law l).real (Ioi 0))]) (by simp; norm_num; linarith) (by simp)
      refine ⟨r, h1, ?_⟩
      rw [h2, ← hof {0}, h0']; simp [hof]
  refine ⟨r, hr, hlaw, ?_, ?_, ?_, ?_⟩
  · rw [hlaw, map_sign]; norm_num [Measure.real]
  · rw [hlaw, map_sign]; norm_num [Measure.real]
  · rw [hlaw, map_sign]; norm_num [Measure.real]
  · rw [hlaw, Measure.map_apply sign_measurable MeasurableSet.univ]; simp

/-- **C26** fails where the CDF does (C07): for the mixture of the constant -1 and `U(1, 2)` the code
gives `sign(X) = -1` the probability 0 instead of 1/2. -/
theorem C26_violated_gap {q : Quad} {p : QPar} (h : ExactQ q p) :
    let l : PF ℝ := [.dirac (-1) (1 / 2), .const 1 2 (1 / 2)]
    PF.WF 0 l ∧ PF.Dens l ∧ (PF.law l).real (Iio 0) = 1 / 2 ∧
      ∃ r, signDistr 0 q p l = some r ∧ (PF.law r).real {-1} = 0 := by
  intro l
  have hw : PF.WF 0 l := wf_pair trivial (by norm_num [Seg.WF]) ⟨ext_le.2 (by norm_num), by simp⟩
  have hd : PF.Dens l := dens_pair (by norm_num [Seg.Dens]) (const_dens 1 2 (by norm_num))
  refine ⟨hw, hd, ?_, ?_⟩
  · have h2 : (Seg.const (1 : ℝ) 2 (1 / 2)).law.real (Iio 0) = 0 := by
      refine le_antisymm ?_ measureReal_nonneg
      have := Seg.law_finite (const_dens 1 2 (c := 1 / 2) (by norm_num))
      have e := law_Iic_right (const_dens 1 2 (c := 1 / 2) (by norm_num)) (x := 0) (ext_lt.2 (by norm_num))
      exact (measureReal_mono Iio_subset_Iic_self).trans e.le
    rw [law_pair hd, Seg.law_real_dirac (by norm_num) measurableSet_Iio, h2]
    norm_num [indicator]
  · have hc : PF.cdf 0 q p l 0 = some 0 := cdf_before le_rfl h hw hd (u := 1) (by
      intro T
      exact ⟨_, _, rfl, rfl⟩) (by norm_num)
    have e : signTable 0 q p l = some [(-1, 0), (1, 1)] := by
      have h3 : PF.ccdfValue 0 q p l 0 = some 1 := by
        rw [show PF.ccdfValue 0 q p l 0 = (PF.cdf 0 q p l 0).map fun c => 1 - c from rfl, hc]
        simp
      rw [signTable, h3, hc]
      simp [l, PF.getDirac]
    obtain ⟨r, h1, -, -, h2⟩ := C25_law_partial (eps := 0) le_rfl (t := [(-1, 0), (1, 1)]) (by simp; norm_num) (by simp)
    refine ⟨r, by rw [signDistr, e]; exact h1, ?_⟩
    rw [h2]
    norm_num [Measure.real]

/-- **C59** fails where the CDF does (C07): for the mixture of the constant -1 and `U(1, 2)` the code
returns `P(X > 0) = 1` instead of 1/2. -/
theorem C59_violated_gap {q : Quad} {p : QPar} (h : ExactQ q p) :
    let l : PF ℝ := [.dirac (-1) (1 / 2), .const 1 2 (1 / 2)]
    PF.WF 0 l ∧ PF.Dens l ∧ (PF.law l).real (Iio 0) = 1 / 2 ∧ PF.ccdfValue 0 q p l 0 = some 1 := by
  intro l
  obtain ⟨hw, hd, h3, -⟩ := C26_violated_gap h
  refine ⟨hw, hd, h3, ?_⟩
  have hc : PF.cdf 0 q p l 0 = some 0 := cdf_before le_rfl h hw hd (u := 1) (by
    intro T
    exact ⟨_, _, rfl, rfl⟩) (by norm_num)
  rw [show PF.ccdfValue 0 q p l 0 = (PF.cdf 0 q p l 0).map fun c => 1 - c from rfl, hc]
  simp

/-! ### the hypotheses can be met -/

/-- a mixture with an atom at 0: mass 1/2 at 0, the rest uniform on `[-1, 0]` -/
example {q : Quad} {p : QPar} (h : ExactQ q p) :
    ∃ r, signDistr 0 q p [.const (-1) 0 (1 / 2), .dirac 0 (1 / 2)] = some r ∧ (PF.law r).real {0} = 1 / 2 := by
  have hd : PF.Dens [Seg.const (-1 : ℝ) 0 (1 / 2), .dirac 0 (1 / 2)] :=
    dens_pair (const_dens _ _ (by norm_num)) (by norm_num [Seg.Dens])
  have hfin := PF.law_finite hd
  have hm : (PF.law [Seg.const (-1 : ℝ) 0 (1 / 2), .dirac 0 (1 / 2)]).real univ = 1 := by
    rw [law_pair hd, const_mass _ _ (by norm_num) (by norm_num), Seg.law_real_dirac (by norm_num) MeasurableSet.univ]
    norm_num
  obtain ⟨r, h1, -, -, h2, -⟩ := C26_sign_partial (eps := 0) le_rfl (by norm_num) h
    (l := [.const (-1) 0 (1 / 2), .dirac 0 (1 / 2)]) (by simp)
    (wf_pair (by norm_num [Seg.WF]) trivial ⟨by norm_num [Seg.hi, Seg.lo, Ext.fin], by simp⟩) hd
    (by simp [PF.Touching, Seg.follows, Seg.isDirac, Seg.hi])
    (by rw [← ENNReal.toReal_eq_one_iff]; exact hm)
  refine ⟨r, h1, ?_⟩
  rw [h2, law_singleton hd]
  norm_num [PF.massAt, Seg.massAt]

end Pacal
