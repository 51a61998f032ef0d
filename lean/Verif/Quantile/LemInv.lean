import Verif.Quantile.ModelInv
import Verif.Quantile.Example
import Verif.Util.PropsBreaks

/-! Lemmas for the inverse of a distribution function as a piecewise function. -/

namespace Pacal
namespace Quantile
open MeasureTheory Set Transform Filter Topology Breaks

theorem mem_finites {l : List (Ext ℝ)} {x : ℝ} : x ∈ finites l ↔ Ext.fin x ∈ l := by
  simp only [finites, List.mem_filterMap]
  constructor
  · rintro ⟨e, he, h⟩
    match e, h with
    | some (some y), h =>
      cases h
      exact he
  · intro h
    exact ⟨_, h, rfl⟩

theorem finites_sorted {l : List (Ext ℝ)} (h : l.Pairwise (· < ·)) : (finites l).Pairwise (· < ·) := by
  unfold finites
  rw [List.pairwise_filterMap]
  refine h.imp fun {a b} hab x hx y hy => ?_
  match a, b, hx, hy with
  | some (some a), some (some b), hx, hy =>
    cases hx
    cases hy
    exact Ext.fin_lt_fin.1 hab

/-- the break points for a list of values between 0 and 1 that contains 0 -/
theorem invBreaks_spec {vals : List ℝ} (h0 : (0 : ℝ) ∈ vals) (hb : ∀ v ∈ vals, 0 ≤ v ∧ v ≤ 1) (z : Bool) :
    (invBreaks vals z).Pairwise (· < ·) ∧ (0 : ℝ) ∈ invBreaks vals z ∧ (∀ v ∈ invBreaks vals z, v ∈ vals) ∧
    ((1 : ℝ) ∈ vals → (∀ v ∈ vals, v = 1 ∨ v < 1 - 1 / 10000) → (1 : ℝ) ∈ invBreaks vals z) ∧
    ((∃ v ∈ invBreaks vals z, v < 1 ∧ 1 - 1 / 10000 ≤ v) → (1 : ℝ) ∉ invBreaks vals z) ∧
    (∀ v ∈ vals, (∀ w ∈ vals, w < v → w < v - 1 / 10000) → v ∈ invBreaks vals z) := by
  obtain ⟨c1, c2, c3, c4, -⟩ := C17_epsunique_partial (1 / 10000 : ℝ) (vals.map Ext.fin)
  have k0 : (0 : ℝ) ∈ finites (epsunique (1 / 10000) (vals.map Ext.fin)) := by
    rw [mem_finites]
    refine c4 _ (List.mem_map.2 ⟨0, h0, rfl⟩) fun y hy => ?_
    obtain ⟨v, hv, rfl⟩ := List.mem_map.1 hy
    exact Ext.fin_le_fin.2 (hb v hv).1
  have e : invBreaks vals z = finites (epsunique (1 / 10000) (vals.map Ext.fin)) := by
    refine if_neg ?_
    rw [decide_eq_true k0]
    simp
  have mem : ∀ v ∈ finites (epsunique (1 / 10000) (vals.map Ext.fin)), v ∈ vals := by
    intro v hv
    obtain ⟨w, hw, e⟩ := List.mem_map.1 (c2 _ (mem_finites.1 hv))
    rwa [← fin_inj.1 e]
  have kept : ∀ v ∈ vals, (∀ w ∈ vals, w < v → w < v - 1 / 10000) → v ∈ finites (epsunique (1 / 10000) (vals.map Ext.fin)) := by
    intro v hv hg
    rw [mem_finites]
    rcases c3 _ (List.mem_map.2 ⟨v, hv, rfl⟩) with h | ⟨y, hy, hlt, a, b, ea, eb, hc⟩
    · exact h
    · exfalso
      obtain ⟨w, hw, rfl⟩ := List.mem_map.1 hy
      rw [fin_inj] at ea eb
      subst ea eb
      rw [max_eq_left (by rw [abs_of_nonneg (hb v hv).1]; exact (hb v hv).2)] at hc
      have := hg w hw (Ext.fin_lt_fin.1 hlt)
      linarith
  rw [e]
  refine ⟨finites_sorted (c1.imp And.left), k0, mem, ?_, ?_, kept⟩
  · intro h1 hg
    refine kept 1 h1 fun w hw hlt => ?_
    rcases hg w hw with rfl | h
    · exact absurd hlt (lt_irrefl _)
    · exact h
  · rintro ⟨v, hv, hv1, hvg⟩ h1
    rw [mem_finites] at hv h1
    have : ∀ {l : List (Ext ℝ)}, l.Pairwise (fun a b => a < b ∧ ¬ RelClose (1 / 10000) a b) → Ext.fin v ∈ l → Ext.fin 1 ∈ l →
        ¬ RelClose (1 / 10000) (Ext.fin v) (Ext.fin (1 : ℝ)) := by
      intro l hl hv h1
      induction l with
      | nil => simp at hv
      | cons x l ih =>
        rw [List.pairwise_cons] at hl
        rcases List.mem_cons.1 hv with rfl | hv'
        · rcases List.mem_cons.1 h1 with h1 | h1
          · exact absurd (fin_inj.1 h1) hv1.ne'
          · exact (hl.1 _ h1).2
        · rcases List.mem_cons.1 h1 with rfl | h1
          · exact absurd (hl.1 _ hv').1 (not_lt.2 (Ext.fin_le_fin.2 hv1.le))
          · exact ih hl.2 hv' h1
    exact this c1 hv h1 ⟨v, 1, rfl, rfl, by rw [abs_one, max_self]; linarith⟩

/-- the value of the result inside and beyond the break points -/
theorem invfun_eq {P : Finding} {c : PF ℝ} {vals : List ℝ} (hv : breakVals c none = .ok vals) (hs : (invBreaks vals true).Pairwise (· < ·))
    (h0 : (0 : ℝ) ∈ invBreaks vals true) {v : ℝ} (hvm : v ∈ invBreaks vals true) (hpos : 0 < v) {u : ℝ} :
    (0 ≤ u → u ≤ v → invfun P c none true u = inverseScalar P c u) ∧
    ((∀ w ∈ invBreaks vals true, w < u) → invfun P c none true u = .ok (some 0)) := by
  unfold invfun
  rw [hv]
  simp only [Except.bind]
  match hb : invBreaks vals true, hs, h0, hvm with
  | [b], hs, h0, hvm =>
    rw [List.mem_singleton] at h0 hvm
    exact absurd (h0.trans hvm.symm) hpos.ne
  | b :: b' :: bs, hs, h0, hvm =>
    simp only
    constructor
    · intro hu0 huv
      refine if_pos ⟨?_, ?_⟩
      · rcases List.mem_cons.1 h0 with h | h
        · exact h ▸ hu0
        · exact ((List.pairwise_cons.1 hs).1 _ h).le.trans hu0
      · refine huv.trans ?_
        have hv' : v ∈ b' :: bs := by
          rcases List.mem_cons.1 hvm with rfl | h
          · rcases List.mem_cons.1 h0 with h | h
            · exact absurd h hpos.ne
            · exact absurd ((List.pairwise_cons.1 hs).1 _ h) (not_lt.2 hpos.le)
          · exact h
        exact (List.pairwise_cons.1 hs).2.imp le_of_lt |>.rel_getLast_of_rel_getLast_getLast hv' le_rfl
    · intro h
      refine if_neg fun hn => ?_
      exact absurd hn.2 (not_le.2 (h _ (List.mem_cons_of_mem _ (List.getLast_mem _))))

variable {μ : Measure ℝ} {c : PF ℝ}

theorem valLo_eq [IsProbabilityMeasure μ] (h : IsCdf μ c) {s : Seg ℝ} (hs : s ∈ c) {a : ℝ} (ha : s.lo = .fin a) :
    s.valLo = μ.real (Iic a) := by
  rw [valLo_fin h hs ha]
  obtain ⟨d, had, hd⟩ : ∃ d, a < d ∧ Ext.fin d ≤ s.hi := by
    have := h.wf s hs
    cases s with
    | fin _ a' b f => exact ⟨b, by cases ha; exact this.1, le_rfl⟩
    | const a' b v => exact ⟨b, by cases ha; exact this.1, le_rfl⟩
    | minf b f => cases ha
    | pinf a' f => exact ⟨a + 1, by linarith, le_top⟩
    | dirac => simp [Seg.isDirac] at this
  refine le_antisymm (h.sand s hs a ha.le ((Ext.fin_le_fin.2 had.le).trans hd)).2 ?_
  have hc := h.cont s hs a d ha.le hd a (left_mem_Icc.2 had.le)
  have ht : Tendsto s.fn (𝓝[Ioc a d] a) (𝓝 (s.fn a)) := hc.mono_left (nhdsWithin_mono _ Ioc_subset_Icc_self)
  have : (𝓝[Ioc a d] a).NeBot := by
    rw [nhdsWithin_Ioc_eq_nhdsGT had]
    infer_instance
  refine ge_of_tendsto ht (eventually_nhdsWithin_of_forall fun x hx => ?_)
  refine le_trans (measureReal_mono fun t (ht : t ≤ a) => show t < x from lt_of_le_of_lt ht hx.1)
    (h.sand s hs x (ha.le.trans (Ext.fin_le_fin.2 hx.1.le)) ((Ext.fin_le_fin.2 hx.2).trans hd)).1

theorem valHi_eq [IsProbabilityMeasure μ] (h : IsCdf μ c) {s : Seg ℝ} (hs : s ∈ c) {b : ℝ} (hb : s.hi = .fin b) :
    s.valHi = μ.real (Iio b) := by
  rw [valHi_fin h hs hb]
  obtain ⟨d, had, hd⟩ : ∃ d, d < b ∧ s.lo ≤ Ext.fin d := by
    have := h.wf s hs
    cases s with
    | fin _ a' b' f => exact ⟨a', by cases hb; exact this.1, le_rfl⟩
    | const a' b' v => exact ⟨a', by cases hb; exact this.1, le_rfl⟩
    | minf b' f => exact ⟨b - 1, by linarith, bot_le⟩
    | pinf a' f => cases hb
    | dirac => simp [Seg.isDirac] at this
  refine le_antisymm ?_ (h.sand s hs b (hd.trans (Ext.fin_le_fin.2 had.le)) hb.ge).1
  have hc := h.cont s hs d b hd hb.ge b (right_mem_Icc.2 had.le)
  have ht : Tendsto s.fn (𝓝[Ico d b] b) (𝓝 (s.fn b)) := hc.mono_left (nhdsWithin_mono _ Ico_subset_Icc_self)
  have : (𝓝[Ico d b] b).NeBot := by
    rw [nhdsWithin_Ico_eq_nhdsLT had]
    infer_instance
  refine le_of_tendsto ht (eventually_nhdsWithin_of_forall fun x hx => ?_)
  exact le_trans (h.sand s hs x (hd.trans (Ext.fin_le_fin.2 hx.1)) ((Ext.fin_le_fin.2 hx.2.le).trans hb.ge)).2
    (measureReal_mono fun t (ht : t ≤ x) => show t < b from lt_of_le_of_lt ht hx.2)

theorem linked_top : ∀ {c : PF ℝ} {e : Ext ℝ}, e ≠ .pinf → Linked e .pinf c → ∃ s ∈ c, s.hi = .pinf
  | [], e, he, h => absurd h he
  | s :: c, e, he, h => by
    by_cases hs : s.hi = .pinf
    · exact ⟨s, by simp, hs⟩
    · obtain ⟨t, ht, e⟩ := linked_top hs h.2
      exact ⟨t, by simp [ht], e⟩

theorem segVals_spec [IsProbabilityMeasure μ] (h : IsCdf μ c) : (0 : ℝ) ∈ segVals c ∧ (1 : ℝ) ∈ segVals c ∧
    ∀ v ∈ segVals c, v = 0 ∨ v = 1 ∨ ∃ a : ℝ, (∃ s ∈ c, s.lo = .fin a ∨ s.hi = .fin a) ∧ (v = μ.real (Iio a) ∨ v = μ.real (Iic a)) := by
  refine ⟨?_, ?_, ?_⟩
  · match c, h with
    | [], h => exact absurd rfl h.ne
    | s :: c, h =>
      have hlo : s.lo = .ninf := h.linked.1
      have hw := h.wf s (by simp)
      have : s.valLo = 0 := by
        cases s with
        | minf b f => exact valLo_minf h (by simp)
        | _ => simp_all [Seg.lo, Ext.fin, Ext.ninf]
      simp [segVals, this]
  · obtain ⟨s, hs, hp⟩ := linked_top (by simp [Ext.ninf, Ext.pinf]) h.linked
    have : s.valHi = 1 := by
      cases s with
      | pinf b f => exact valHi_pinf h hs
      | _ => simp_all [Seg.hi, Ext.fin, Ext.pinf]
    exact List.mem_flatMap.2 ⟨s, hs, by simp [this]⟩
  · intro v hv
    obtain ⟨s, hs, hv⟩ := List.mem_flatMap.1 hv
    have hw := h.wf s hs
    have lo : ∀ a, s.lo = .fin a → s.valLo = 0 ∨ s.valLo = 1 ∨ ∃ a : ℝ, (∃ s ∈ c, s.lo = .fin a ∨ s.hi = .fin a) ∧
        (s.valLo = μ.real (Iio a) ∨ s.valLo = μ.real (Iic a)) :=
      fun a hl => .inr (.inr ⟨a, ⟨s, hs, .inl hl⟩, .inr (valLo_eq h hs hl)⟩)
    have hi : ∀ a, s.hi = .fin a → s.valHi = 0 ∨ s.valHi = 1 ∨ ∃ a : ℝ, (∃ s ∈ c, s.lo = .fin a ∨ s.hi = .fin a) ∧
        (s.valHi = μ.real (Iio a) ∨ s.valHi = μ.real (Iic a)) :=
      fun a hl => .inr (.inr ⟨a, ⟨s, hs, .inr hl⟩, .inl (valHi_eq h hs hl)⟩)
    rcases List.mem_cons.1 hv with rfl | hv
    · cases s with
      | minf b f => exact .inl (valLo_minf h hs)
      | dirac => simp [Seg.isDirac] at hw
      | _ => exact lo _ rfl
    · rw [List.mem_singleton] at hv
      subst hv
      cases s with
      | pinf b f => exact .inr (.inl (valHi_pinf h hs))
      | dirac => simp [Seg.isDirac] at hw
      | _ => exact hi _ rfl

theorem cumSegs_ends (q : Quad) (p : QPar) {t : Seg ℝ} {l : PF ℝ} (hd : PF.Dens l) {y : ℝ} (ht : t ∈ cumSegs q p y l) :
    ∃ s ∈ l, t.lo = s.lo ∧ t.hi = s.hi := by
  obtain ⟨l₁, s, l₂, rfl, hs, rfl⟩ := mem_cumSegs_split q p hd ht
  exact ⟨s, by simp, by rw [cumint_lo], by rw [cumint_hi]⟩

/-- the pieces of the distribution function end where the pieces of the density do -/
theorem cumint_ends {eps : ℝ} (he : 0 ≤ eps) {q : Quad} {p : QPar} (h : ExactQ q p) {l : PF ℝ} (hne : l ≠ []) (hw : PF.WF eps l)
    (hd : PF.Dens l) {c : PF ℝ} (hc : PF.cumint eps q p l = some c) {t : Seg ℝ} (ht : t ∈ c) {a : ℝ} (hta : t.lo = .fin a ∨ t.hi = .fin a) :
    ∃ s ∈ l, s.lo = .fin a ∨ s.hi = .fin a := by
  obtain ⟨T, hT1, hT2, u, F, huF, huw, hun, hm, hf⟩ := cumint_shape he h hne hw hd
  have body : ∀ t ∈ u :: F, (t.lo = .fin a ∨ t.hi = .fin a) → ∃ s ∈ l, s.lo = .fin a ∨ s.hi = .fin a := by
    intro t ht hta
    rw [← huF] at ht
    rcases List.mem_append.1 ht with ht | ht
    · obtain ⟨s, hs, e1, e2⟩ := cumSegs_ends q p hd ht
      exact ⟨s, hs, by rwa [← e1, ← e2]⟩
    · by_cases hp : ∃ s ∈ l, s.isPInf = true
      · rw [hT2 hp] at ht; simp at ht
      · push Not at hp
        obtain ⟨B, rfl, s, hs, hB⟩ := hT1 fun s hs => by simpa using hp s hs
        rw [List.mem_singleton.1 ht] at hta
        rcases hta with hta | hta
        · exact ⟨s, List.mem_of_getLast? hs, .inr (hB.trans hta)⟩
        · cases hta
  by_cases hu : ∃ a, u.lo = .fin a
  · obtain ⟨a', ha'⟩ := hu
    obtain ⟨e, -⟩ := hf a' ha'
    obtain rfl := Option.some.inj (hc.symm.trans e)
    rcases List.mem_cons.1 ht with rfl | ht
    · rcases hta with hta | hta
      · cases hta
      · exact body u (by simp) (.inl (ha'.trans hta))
    · exact body t ht hta
  · have hu' : ∃ b f, u = .minf b f := by
      cases u <;> first | exact ⟨_, _, rfl⟩ | exact absurd ⟨_, rfl⟩ hu
    obtain rfl := Option.some.inj (hc.symm.trans (hm hu'))
    exact body t ht hta

section Break
variable {eps : ℝ} {q : Quad} {qp : QPar} {S : Roots.Finder ℝ} {l : PF ℝ}

/-- the values used as break points -/
theorem breakVals_spec (h : Setting eps q qp S l) : ∃ c vals, PF.cumint eps q qp l = some c ∧ IsCdf (PF.law l) c ∧
    breakVals c none = .ok vals ∧ (0 : ℝ) ∈ vals ∧ (1 : ℝ) ∈ vals ∧
    (∀ s ∈ c, s.valLo ∈ vals ∧ s.valHi ∈ vals) ∧
    ∀ v ∈ vals, v = 0 ∨ v = 1 ∨ ∃ a : ℝ, (a = 0 ∨ ∃ s ∈ l, s.lo = .fin a ∨ s.hi = .fin a) ∧
      (v = (PF.law l).real (Iio a) ∨ v = (PF.law l).real (Iic a)) := by
  have := h.prob
  obtain ⟨c, hc, hC⟩ := cumint_isCdf h.eps_nonneg h.quad h.ne h.wf h.dens h.chain
  have hx0 := C07_cdf_partial h.eps_nonneg h.quad h.ne h.wf h.dens (touching_of_chain h.eps_nonneg h.wf h.chain) 0
  rw [PF.cdf, hc, Option.bind_some] at hx0
  obtain ⟨s0, s1, sv⟩ := segVals_spec hC
  have sv' : ∀ v ∈ segVals c, v = 0 ∨ v = 1 ∨ ∃ a : ℝ, (a = 0 ∨ ∃ s ∈ l, s.lo = .fin a ∨ s.hi = .fin a) ∧
      (v = (PF.law l).real (Iio a) ∨ v = (PF.law l).real (Iic a)) := by
    intro v hv
    rcases sv v hv with e | e | ⟨a, ⟨s, hs, ha⟩, e⟩
    · exact .inl e
    · exact .inr (.inl e)
    · exact .inr (.inr ⟨a, .inr (cumint_ends h.eps_nonneg h.quad h.ne h.wf h.dens hc hs ha), e⟩)
  refine ⟨c, if (PF.law l).real (Iic 0) ∈ segVals c then segVals c else segVals c ++ [(PF.law l).real (Iic 0)], hc, hC, ?_, ?_, ?_, ?_, ?_⟩
  · rw [breakVals, hx0]
  · split_ifs <;> simp [s0]
  · split_ifs <;> simp [s1]
  · intro s hs
    have h1 : s.valLo ∈ segVals c ∧ s.valHi ∈ segVals c :=
      ⟨List.mem_flatMap.2 ⟨s, hs, by simp⟩, List.mem_flatMap.2 ⟨s, hs, by simp⟩⟩
    split_ifs <;> simp [h1]
  · split_ifs
    · exact sv'
    · intro v hv
      rcases List.mem_append.1 hv with hv | hv
      · exact sv' v hv
      · rw [List.mem_singleton] at hv
        exact .inr (.inr ⟨0, .inl rfl, .inr hv⟩)

theorem vals_bounds {l : PF ℝ} [IsProbabilityMeasure (PF.law l)] {v : ℝ} (h : v = 0 ∨ v = 1 ∨ ∃ a : ℝ,
    (a = 0 ∨ ∃ s ∈ l, s.lo = .fin a ∨ s.hi = .fin a) ∧ (v = (PF.law l).real (Iio a) ∨ v = (PF.law l).real (Iic a))) : 0 ≤ v ∧ v ≤ 1 := by
  rcases h with rfl | rfl | ⟨a, -, rfl | rfl⟩
  · norm_num
  · norm_num
  · exact ⟨measureReal_nonneg, measureReal_le_one⟩
  · exact ⟨measureReal_nonneg, measureReal_le_one⟩

end Break

theorem sorted_two {l : List ℝ} {a b : ℝ} (hab : a < b) (hs : l.Pairwise (· < ·)) (hm : ∀ x, x ∈ l ↔ x = a ∨ x = b) : l = [a, b] := by
  refine List.Perm.eq_of_pairwise (le := (· < ·)) ?_ hs (by simp [hab]) ?_
  · intro x y _ _ h1 h2
    exact absurd (lt_trans h1 h2) (lt_irrefl _)
  · rw [List.perm_ext_iff_of_nodup (hs.imp fun h => ne_of_lt h) (by simp [hab.ne])]
    intro x
    simp [hm]

theorem unique_two {a b : ℝ} (hab : a < b) (h : 1 / 10000 * max 1 |b| < b - a) :
    finites (epsunique (1 / 10000) ([a, b].map Ext.fin)) = [a, b] := by
  obtain ⟨c1, c2, c3, c4, -⟩ := C17_epsunique_partial (1 / 10000 : ℝ) ([a, b].map Ext.fin)
  refine sorted_two hab (finites_sorted (c1.imp fun h => h.1)) fun x => ?_
  rw [mem_finites]
  constructor
  · intro hx
    obtain ⟨v, hv, e⟩ := List.mem_map.1 (c2 _ hx)
    cases e
    simpa using hv
  · rintro (rfl | rfl)
    · refine c4 _ (by simp) fun y hy => ?_
      obtain ⟨v, hv, rfl⟩ := List.mem_map.1 hy
      have : v = x ∨ v = b := by simpa using hv
      rcases this with rfl | rfl
      · exact le_refl _
      · exact Ext.fin_le_fin.2 hab.le
    · rcases c3 (Ext.fin x) (by simp) with h1 | ⟨y, hy, h1, p, q, rfl, e, h3⟩
      · exact h1
      · cases e
        obtain ⟨v, hv, e⟩ := List.mem_map.1 hy
        cases e
        have : p = a ∨ p = x := by simpa using hv
        rcases this with rfl | rfl
        · linarith
        · exact absurd h1 (lt_irrefl _)

end Quantile
end Pacal
