import Verif.Law.Cumint

/-! The CDF as computed by `cumint`: lemmas for `Verif.Law.PropsCdf`. -/

namespace Pacal
open MeasureTheory Set Transform

theorem seg_lo_le_hi {s : Seg ℝ} (h : s.WF) : s.lo ≤ s.hi := by
  cases s <;> simp_all [Seg.lo, Seg.hi, Ext.fin, Ext.ninf, Ext.pinf, Seg.WF, le_of_lt]

theorem mem_cumSegs (q : Quad) (p : QPar) : ∀ {l : PF ℝ} {y : ℝ} {t : Seg ℝ}, (∀ s ∈ l, s.WF) → t ∈ cumSegs q p y l →
    ∃ s ∈ l, s.isDirac = false ∧ t.lo = s.lo ∧ t.hi = s.hi ∧ t.WF ∧ t.isDirac = false
  | [], _, _, _, h => by simp [cumSegs] at h
  | s :: l, y, t, hw, h => by
    cases hs : s.isDirac
    · rw [cumSegs_of_not q p y hs] at h
      rcases List.mem_cons.1 h with rfl | h
      · exact ⟨s, by simp, hs, cumint_lo .., cumint_hi .., cumint_wf q p hs (hw s (by simp)) _, cumint_isDirac ..⟩
      · obtain ⟨u, hu, r⟩ := mem_cumSegs q p (fun s hs => hw s (by simp [hs])) h
        exact ⟨u, by simp [hu], r⟩
    · cases s <;> simp [Seg.isDirac] at hs
      obtain ⟨u, hu, r⟩ := mem_cumSegs q p (fun s hs => hw s (by simp [hs])) (show t ∈ cumSegs q p _ l from h)
      exact ⟨u, by simp [hu], r⟩

theorem cumSegs_wf {eps : ℝ} (q : Quad) (p : QPar) : ∀ {l : PF ℝ} {y : ℝ}, PF.WF eps l → PF.WF eps (cumSegs q p y l)
  | [], _, _ => ⟨by simp [cumSegs], by simp [cumSegs]⟩
  | s :: l, y, hw => by
    have hwl : PF.WF eps l := ⟨fun t ht => hw.seg t (by simp [ht]), (List.pairwise_cons.1 hw.sorted).2⟩
    have hsl : ∀ t ∈ l, s.LeftOf eps t := (List.pairwise_cons.1 hw.sorted).1
    cases hs : s.isDirac
    · rw [cumSegs_of_not q p y hs]
      have ih := cumSegs_wf (y := y + s.law.real univ) q p hwl
      refine ⟨?_, List.pairwise_cons.2 ⟨fun t ht => ?_, ih.sorted⟩⟩
      · intro t ht
        rcases List.mem_cons.1 ht with rfl | ht
        · exact cumint_wf q p hs (hw.seg s (by simp)) _
        · exact ih.seg t ht
      · obtain ⟨u, hu, -, e, -⟩ := mem_cumSegs q p hwl.seg ht
        exact leftOf_of_nodirac (by rw [cumint_hi, e]; exact (hsl u hu).1) (cumint_isDirac ..)
    · cases s <;> simp [Seg.isDirac] at hs
      rename_i a m
      exact cumSegs_wf (y := y + m) q p hwl

/-- `x` may be looked up in the list starting with the head of `l` -/
def Start (x : ℝ) : PF ℝ → Prop
  | .dirac a _ :: _ => a ≤ x
  | .const a _ c :: _ => a ≤ x ∨ c = 0
  | _ => True

theorem pinf_last {eps : ℝ} {s : Seg ℝ} {l : PF ℝ} (hw : PF.WF eps (s :: l)) (hp : s.isPInf = true) : l = [] := by
  cases l with
  | nil => rfl
  | cons t l =>
    have := ((List.pairwise_cons.1 hw.sorted).1 t (by simp)).1
    cases s <;> simp [Seg.isPInf] at hp
    cases t <;> simp [Seg.hi, Seg.lo, Ext.fin, Ext.ninf, Ext.pinf] at this

theorem pick_cum {eps : ℝ} {q : Quad} {p : QPar} (h : ExactQ q p) {x : ℝ} : ∀ {l T : PF ℝ} {y : ℝ}, PF.WF eps l →
    PF.Dens l → List.IsChain Seg.follows l → Start x l →
    ((∀ s ∈ l, s.isPInf = false) → ∃ B, T = [.pinf B fun _ => y + (PF.law l).real univ]) →
    pick x (cumSegs q p y l ++ T) = some (y + (PF.law l).real (Iic x))
  | [], T, y, _, _, _, _, hT => by
    obtain ⟨B, rfl⟩ := hT (by simp)
    have : Ext.fin x < Ext.pinf := WithBot.coe_lt_coe.2 (WithTop.coe_lt_top x)
    simp [cumSegs, pick, Seg.hi, this, Seg.fn]
  | s :: l, T, y, hw, hd, hch, hst, hT => by
    obtain ⟨hds, hdl⟩ := PF.dens_cons.1 hd
    have hws := hw.seg s (by simp)
    have hwl : PF.WF eps l := ⟨fun t ht => hw.seg t (by simp [ht]), (List.pairwise_cons.1 hw.sorted).2⟩
    have hsl : ∀ t ∈ l, s.LeftOf eps t := (List.pairwise_cons.1 hw.sorted).1
    have hcl : List.IsChain Seg.follows l := hch.of_cons
    rw [PF.law_real_cons hd]
    cases hs : s.isDirac
    · rw [cumSegs_of_not q p y hs, List.cons_append]
      unfold pick
      rw [cumint_hi]
      by_cases hx : .fin x < s.hi
      · rw [if_pos hx]
        have hc : s.constOk x := by
          cases s <;> trivial
        rw [cumint_fn h hs hws hds hc, PF.law_Iic_right hdl (fun t ht => hx.trans_le (hsl t ht).1)]
        cases hp : s.isPInf
        · simp
        · simp only [if_true, add_zero]; ring_nf
      · rw [if_neg hx]
        have hx' := not_lt.1 hx
        have hp : s.isPInf = false := by
          cases s <;> first | rfl | exact absurd (WithBot.coe_lt_coe.2 (WithTop.coe_lt_top x)) hx
        rw [pick_cum h (l := l) (T := T) (y := y + s.law.real univ) hwl hdl hcl ?_ ?_, law_Iic_left hds hx', add_assoc]
        · cases l with
          | nil => trivial
          | cons t l =>
            have hf : s.follows t := (List.isChain_cons_cons.1 hch).1
            cases t with
            | dirac a m =>
              have := hf.2
              rw [this] at hx'
              show a ≤ x
              simpa [Ext.fin] using hx'
            | const a b c =>
              rcases hf with hf | hf
              · exact .inr hf
              · rw [hf] at hx'
                exact .inl (by simpa [Ext.fin] using hx')
            | _ => trivial
        · intro hl
          obtain ⟨B, rfl⟩ := hT (by
            intro t ht
            rcases List.mem_cons.1 ht with rfl | ht
            · exact hp
            · exact hl t ht)
          exact ⟨B, by rw [PF.law_real_cons hd, add_assoc]⟩
    · cases s <;> simp [Seg.isDirac] at hs
      rename_i a m
      have hm : (Seg.dirac a m).law.real univ = m := by
        rw [Seg.law_real_dirac hds MeasurableSet.univ, indicator_univ]
      have hax : a ≤ x := hst
      rw [law_Iic_left hds (show (Seg.dirac a m).hi ≤ .fin x by simpa [Seg.hi, Ext.fin] using hax), hm]
      show pick x (cumSegs q p (y + m) l ++ T) = _
      rw [pick_cum h (l := l) (T := T) (y := y + m) hwl hdl hcl ?_ ?_, add_assoc]
      · cases l with
        | nil => trivial
        | cons t l =>
          have hf : (Seg.dirac a m).follows t := (List.isChain_cons_cons.1 hch).1
          cases t with
          | dirac a' m' => exact absurd hf.1 (by simp [Seg.isDirac])
          | const a' b c =>
            rcases hf with hf | hf
            · exact .inr hf
            · have : a = a' := by simpa [Seg.hi, Ext.fin] using hf
              exact .inl (this ▸ hax)
          | _ => trivial
      · intro hl
        obtain ⟨B, rfl⟩ := hT (by
          intro t ht
          rcases List.mem_cons.1 ht with rfl | ht
          · rfl
          · exact hl t ht)
        exact ⟨B, by rw [PF.law_real_cons hd, hm, add_assoc]⟩

theorem wf_getLast {eps : ℝ} {l : PF ℝ} (hw : PF.WF eps l) {s : Seg ℝ} (hs : l.getLast? = some s) :
    ∀ t ∈ l, t.hi ≤ s.hi := by
  intro t ht
  obtain ⟨l', rfl⟩ := List.getLast?_eq_some_iff.1 hs
  rcases List.mem_append.1 ht with ht | ht
  · have := ((wf_append hw).2.2 t ht s (by simp)).1
    exact this.trans (seg_lo_le_hi (hw.seg s (by simp)))
  · rw [List.mem_singleton.1 ht]

theorem wf_head {eps : ℝ} {s : Seg ℝ} {l : PF ℝ} (hw : PF.WF eps (s :: l)) : ∀ t ∈ s :: l, s.lo ≤ t.lo := by
  intro t ht
  rcases List.mem_cons.1 ht with rfl | ht
  · exact le_rfl
  · exact (seg_lo_le_hi (hw.seg s (by simp))).trans ((List.pairwise_cons.1 hw.sorted).1 t ht).1

/-- shape of the result of `cumint` -/
theorem cumint_shape {eps : ℝ} (he : 0 ≤ eps) {q : Quad} {p : QPar} (h : ExactQ q p) {l : PF ℝ} (hne : l ≠ [])
    (hw : PF.WF eps l) (hd : PF.Dens l) :
    ∃ T, ((∀ s ∈ l, s.isPInf = false) → ∃ B, T = [.pinf B fun _ => (PF.law l).real univ] ∧
        ∃ s, l.getLast? = some s ∧ s.hi = .fin B) ∧
      ((∃ s ∈ l, s.isPInf = true) → T = []) ∧
      ∃ u F, cumSegs q p 0 l ++ T = u :: F ∧ PF.WF eps (u :: F) ∧ (∀ s ∈ u :: F, s.isDirac = false) ∧
        ((∃ b f, u = .minf b f) → PF.cumint eps q p l = some (u :: F)) ∧
        (∀ a, u.lo = .fin a → PF.cumint eps q p l = some (.minf a (fun _ => 0) :: u :: F) ∧
          PF.WF eps (.minf a (fun _ => 0) :: u :: F)) := by
  obtain ⟨g, hg, -, hlast⟩ := cumintLoop_spec he h (l := l) (F := []) (y := 0) (last := none) hw hd (by simp)
  obtain ⟨s, hs⟩ : ∃ s, l.getLast? = some s := by
    cases e : l.getLast? with
    | none => exact absurd (List.getLast?_eq_none_iff.1 e) hne
    | some s => exact ⟨s, rfl⟩
  obtain ⟨g', rfl, hpi, hfi⟩ := hlast s hs
  simp only [List.nil_append, zero_add] at hg hfi
  have hsm : s ∈ l := List.mem_of_getLast? hs
  have hcw := cumSegs_wf (y := 0) q p hw
  have hcm := fun t (ht : t ∈ cumSegs q p 0 l) => mem_cumSegs q p hw.seg ht
  -- the list with its tail
  obtain ⟨T, hT1, hT2, hTw, hTn, hTne, hadd⟩ : ∃ T, ((∀ s ∈ l, s.isPInf = false) →
        ∃ B, T = [.pinf B fun _ => (PF.law l).real univ] ∧ ∃ s, l.getLast? = some s ∧ s.hi = .fin B) ∧
      ((∃ s ∈ l, s.isPInf = true) → T = []) ∧ PF.WF eps (cumSegs q p 0 l ++ T) ∧
      (∀ t ∈ cumSegs q p 0 l ++ T, t.isDirac = false) ∧ cumSegs q p 0 l ++ T ≠ [] ∧
      PF.addTail eps (cumSegs q p 0 l) ((PF.law l).real univ) g' = some (cumSegs q p 0 l ++ T) := by
    cases hp : s.isPInf
    · obtain ⟨b, hb⟩ := not_pinf_hi hp
      have hleft : ∀ t ∈ cumSegs q p 0 l, t.LeftOf eps (.pinf b fun _ => (PF.law l).real univ) := by
        intro t ht
        obtain ⟨u, hu, -, -, e, -, hn⟩ := hcm t ht
        exact leftOf_of_nodirac (by rw [e]; exact (wf_getLast hw hs u hu).trans hb.le) hn
      refine ⟨[.pinf b fun _ => (PF.law l).real univ], fun _ => ⟨b, rfl, s, hs, hb⟩, ?_, ?_, ?_, by simp, ?_⟩
      · rintro ⟨t, ht, htp⟩
        have := wf_getLast hw hs t ht
        rw [hb] at this
        cases t <;> simp [Seg.isPInf] at htp
        exact absurd this (not_le.2 (WithBot.coe_lt_coe.2 (WithTop.coe_lt_top b)))
      · refine ⟨?_, List.pairwise_append.2 ⟨hcw.sorted, by simp, ?_⟩⟩
        · intro t ht
          rcases List.mem_append.1 ht with ht | ht
          · exact hcw.seg t ht
          · rw [List.mem_singleton.1 ht]; trivial
        · intro t ht u hu
          rw [List.mem_singleton.1 hu]; exact hleft t ht
      · intro t ht
        rcases List.mem_append.1 ht with ht | ht
        · obtain ⟨_, _, _, _, _, _, hn⟩ := hcm t ht; exact hn
        · rw [List.mem_singleton.1 ht]; rfl
      · rw [PF.addTail, hfi b hb]
        simp only [max_self]
        have := addSegment_split he (l₁ := cumSegs q p 0 l) (l₂ := []) (s := .pinf b fun _ => (PF.law l).real univ)
          (by simpa using hcw.seg) trivial hleft (by simp)
        simpa using this
    · refine ⟨[], fun hc => ?_, fun _ => rfl, by simpa using hcw, ?_, ?_, ?_⟩
      · exact absurd (hc s hsm) (by simp [hp])
      · intro t ht
        obtain ⟨_, _, _, _, _, _, hn⟩ := hcm t (by simpa using ht); exact hn
      · have hmem : ∀ {l : PF ℝ} {y : ℝ}, s ∈ l → cumSegs q p y l ≠ [] := by
          intro l
          induction l with
          | nil => intro y hm; simp at hm
          | cons t l ih =>
            intro y hm
            cases ht : t.isDirac
            · rw [cumSegs_of_not q p y ht]; simp
            · rcases List.mem_cons.1 hm with rfl | hm'
              · cases s <;> simp [Seg.isPInf, Seg.isDirac] at hp ht
              · cases t <;> simp [Seg.isDirac] at ht
                rename_i a m
                exact ih (y := y + m) hm'
        simpa using hmem hsm
      · rw [PF.addTail, hpi hp]; simp
  refine ⟨T, hT1, hT2, ?_⟩
  cases hF : cumSegs q p 0 l ++ T with
  | nil => exact absurd hF hTne
  | cons u F =>
    rw [hF] at hTw hTn hadd
    refine ⟨u, F, rfl, hTw, hTn, ?_, ?_⟩
    · rintro ⟨b, f, rfl⟩
      simp [PF.cumint, hg, hadd, PF.addHead]
    · intro a ha
      have hleft : ∀ t ∈ u :: F, (Seg.minf a fun _ => (0 : ℝ)).LeftOf eps t := fun t ht =>
        leftOf_of_nodirac (by rw [show (Seg.minf a fun _ => (0 : ℝ)).hi = .fin a from rfl, ← ha]; exact wf_head hTw t ht) rfl
      have hw' : PF.WF eps (.minf a (fun _ => 0) :: u :: F) := by
        refine ⟨?_, List.pairwise_cons.2 ⟨hleft, hTw.sorted⟩⟩
        intro t ht
        rcases List.mem_cons.1 ht with rfl | ht
        · trivial
        · exact hTw.seg t ht
      refine ⟨?_, hw'⟩
      have hadd' : PF.addSegment eps (u :: F) (.minf a fun _ => 0) = some (.minf a (fun _ => 0) :: u :: F) := by
        have := addSegment_split he (l₁ := []) (l₂ := u :: F) (s := .minf a fun _ => (0 : ℝ))
          (by simpa using hTw.seg) trivial (by simp) hleft
        simpa using this
      cases u <;> simp [Seg.lo, Ext.fin, Ext.ninf] at ha <;> subst ha <;>
        simp [PF.cumint, hg, hadd, PF.addHead, hadd']

/-- head of the assembled list -/
theorem cumSegs_head {q : Quad} {p : QPar} {y : ℝ} {s : Seg ℝ} (hs : s.isDirac = false) {l T : PF ℝ} {u : Seg ℝ} {F : PF ℝ}
    (h : cumSegs q p y (s :: l) ++ T = u :: F) : u.lo = s.lo := by
  rw [cumSegs_of_not q p y hs, List.cons_append] at h
  rw [← (List.cons.inj h).1, cumint_lo]

/-- in a touching function the assembled list starts where the function starts -/
theorem head_lo {eps : ℝ} {q : Quad} {p : QPar} {l T : PF ℝ} {s u : Seg ℝ} {F : PF ℝ} (ht : PF.Touching (s :: l))
    (hw : PF.WF eps (s :: l))
    (hT : (∀ s' ∈ s :: l, s'.isPInf = false) → ∃ B, T = [.pinf B fun _ => (PF.law (s :: l)).real univ] ∧
        ∃ s', (s :: l).getLast? = some s' ∧ s'.hi = .fin B)
    (h : cumSegs q p 0 (s :: l) ++ T = u :: F) : u.lo = s.lo := by
  cases hs : s.isDirac
  · exact cumSegs_head hs h
  · cases s <;> simp [Seg.isDirac] at hs
    rename_i a m
    cases l with
    | nil =>
      obtain ⟨B, rfl, s', h1, h2⟩ := hT (by simp [Seg.isPInf])
      obtain rfl : Seg.dirac a m = s' := by simpa using h1
      obtain ⟨rfl, -⟩ : .pinf B (fun _ => (PF.law [Seg.dirac a m]).real univ) = u ∧ [] = F := by
        simpa [cumSegs] using h
      exact h2.symm
    | cons t l =>
      obtain ⟨h1, h2⟩ := ht
      have hf : (Seg.dirac a m).follows t := (List.isChain_cons_cons.1 h2).1
      have htd : t.isDirac = false := by
        cases t with
        | dirac a' m' => exact absurd hf.1 (by simp [Seg.isDirac])
        | _ => rfl
      have := cumSegs_head (y := 0 + m) htd (show cumSegs q p (0 + m) (t :: l) ++ T = u :: F from h)
      rw [this, h1]; rfl

theorem touching_chain {l : PF ℝ} (h : PF.Touching l) : List.IsChain Seg.follows l := by
  unfold PF.Touching at h
  split at h
  · exact h.2
  · exact h

/-- the result of `cumint`, with the value the first piece ending right of `x` has at `x` -/
theorem cumint_pick {eps : ℝ} (he : 0 ≤ eps) {q : Quad} {p : QPar} (h : ExactQ q p) {l : PF ℝ} (hne : l ≠ [])
    (hw : PF.WF eps l) (hd : PF.Dens l) (ht : PF.Touching l) :
    ∃ c, PF.cumint eps q p l = some c ∧ PF.WF eps c ∧ (∀ s ∈ c, s.isDirac = false) ∧
      (∀ s, c.head? = some s → s.lo = .ninf) ∧ ∀ x, pick x c = some ((PF.law l).real (Iic x)) := by
  obtain ⟨T, hT1, -, u, F, huF, huw, hun, hm, hf⟩ := cumint_shape he h hne hw hd
  cases l with
  | nil => exact absurd rfl hne
  | cons s l =>
  have hlo := head_lo ht hw hT1 huF
  have hpk : ∀ x, Start x (s :: l) → pick x (u :: F) = some ((PF.law (s :: l)).real (Iic x)) := by
    intro x hx
    have := pick_cum h (T := T) (y := 0) hw hd (touching_chain ht) hx (fun hp => by
      obtain ⟨B, hB, -⟩ := hT1 hp
      exact ⟨B, by simpa using hB⟩)
    rw [← huF, this, zero_add]
  by_cases hu : ∃ a, u.lo = .fin a
  · obtain ⟨a, ha⟩ := hu
    obtain ⟨e, hw'⟩ := hf a ha
    refine ⟨_, e, hw', ?_, ?_, ?_⟩
    · intro t ht
      rcases List.mem_cons.1 ht with rfl | ht
      · rfl
      · exact hun t ht
    · intro t ht
      obtain rfl : Seg.minf a (fun _ => 0) = t := by simpa using ht
      rfl
    · intro x
      unfold pick
      by_cases hx : .fin x < (Seg.minf a fun _ => (0 : ℝ)).hi
      · rw [if_pos hx, PF.law_Iic_right hd]
        · rfl
        · intro t ht
          have h1 := wf_head hw t ht
          rw [← hlo, ha] at h1
          exact lt_of_lt_of_le hx h1
      · rw [if_neg hx]
        have hax : a ≤ x := by simpa [Seg.hi, Ext.fin] using hx
        apply hpk
        rw [ha] at hlo
        cases s with
        | dirac a' m =>
          have : a = a' := by simpa [Seg.lo, Ext.fin] using hlo
          exact this ▸ hax
        | const a' b c =>
          have : a = a' := by simpa [Seg.lo, Ext.fin] using hlo
          exact .inl (this ▸ hax)
        | _ => trivial
  · have hu' : ∃ b f, u = .minf b f := by
      cases u <;> first | exact ⟨_, _, rfl⟩ | exact absurd ⟨_, rfl⟩ hu
    refine ⟨_, hm hu', huw, hun, ?_, fun x => hpk x ?_⟩
    · intro t ht
      obtain rfl : u = t := by simpa using ht
      obtain ⟨b, f, rfl⟩ := hu'
      rfl
    · obtain ⟨b, f, rfl⟩ := hu'
      cases s <;> trivial

/-- array evaluation of a function without atoms that ends with a right tail, at a covered point -/
theorem evalVec_pick {eps : ℝ} {c : PF ℝ} (hw : PF.WF eps c) (hn : ∀ s ∈ c, s.isDirac = false)
    (hl : ∃ s, c.getLast? = some s ∧ s.hi = .pinf) {x v : ℝ} (h : pick x c = some v)
    (hcov : ∃ s ∈ c, s.lo ≤ .fin x ∧ .fin x < s.hi) : c.evalVec x = v := by
  have hsegs : PF.segs c = c := by
    unfold PF.segs
    exact List.filter_eq_self.2 fun s hs => by simp [hn s hs]
  obtain ⟨s, hs, hsp⟩ := hl
  unfold PF.evalVec
  rw [hsegs, hs, evalVecLoop_val hw hn]
  have hne : ¬ (Ext.fin x = s.hi) := by
    rw [hsp]; exact ne_of_lt (WithBot.coe_lt_coe.2 (WithTop.coe_lt_top x))
  simp only [hne, if_false]
  obtain ⟨t, ht, h1, h2⟩ := hcov
  obtain ⟨l₁, s', l₂, rfl, h3, h4, rfl⟩ := pick_split h
  have : t = s' := by
    rcases List.mem_append.1 ht with ht | ht
    · exact absurd (h3 t ht) (not_le.2 h2)
    · rcases List.mem_cons.1 ht with rfl | ht
      · rfl
      · have := ((List.pairwise_cons.1 (wf_append hw).2.1.sorted).1 t ht).1
        exact absurd (h4.trans_le (this.trans h1)) (lt_irrefl _)
  subst this
  exact val_split hw (hn t (by simp)) h1 h2

theorem cumint_last {eps : ℝ} (he : 0 ≤ eps) {q : Quad} {p : QPar} (h : ExactQ q p) {l : PF ℝ} (hne : l ≠ [])
    (hw : PF.WF eps l) (hd : PF.Dens l) {c : PF ℝ} (hc : PF.cumint eps q p l = some c) :
    ∃ s, c.getLast? = some s ∧ s.hi = .pinf := by
  obtain ⟨T, hT1, hT2, u, F, huF, huw, hun, hm, hf⟩ := cumint_shape he h hne hw hd
  have hlast : ∃ s, (u :: F).getLast? = some s ∧ s.hi = .pinf := by
    rw [← huF]
    by_cases hp : ∃ s ∈ l, s.isPInf = true
    · rw [hT2 hp, List.append_nil]
      obtain ⟨s, hs, hsp⟩ := hp
      have key : ∀ {l : PF ℝ} {y : ℝ}, PF.WF eps l → s ∈ l →
          ∃ t, (cumSegs q p y l).getLast? = some t ∧ t.hi = .pinf := by
        intro l
        induction l with
        | nil => intro y _ hm; simp at hm
        | cons t l ih =>
          intro y hwl hm
          have hwl' : PF.WF eps l := ⟨fun u hu => hwl.seg u (by simp [hu]), (List.pairwise_cons.1 hwl.sorted).2⟩
          rcases List.mem_cons.1 hm with rfl | hm'
          · rw [pinf_last hwl hsp]
            cases s <;> simp [Seg.isPInf] at hsp
            exact ⟨_, rfl, rfl⟩
          · cases htd : t.isDirac
            · rw [cumSegs_of_not q p y htd]
              obtain ⟨w, hw1, hw2⟩ := ih (y := y + t.law.real univ) hwl' hm'
              refine ⟨w, ?_, hw2⟩
              rw [List.getLast?_cons_of_ne_nil (by rintro e; simp [e] at hw1)]
              exact hw1
            · cases t <;> simp [Seg.isDirac] at htd
              exact ih hwl' hm'
      exact key hw hs
    · push Not at hp
      obtain ⟨B, rfl, -⟩ := hT1 (fun s hs => by simpa using hp s hs)
      exact ⟨.pinf B fun _ => (PF.law l).real univ, by simp, rfl⟩
  by_cases hu : ∃ a, u.lo = .fin a
  · obtain ⟨a, ha⟩ := hu
    obtain rfl : _ = c := Option.some.inj ((hf a ha).1.symm.trans hc)
    rw [List.getLast?_cons_of_ne_nil (by simp)]
    exact hlast
  · have hu' : ∃ b f, u = .minf b f := by
      cases u <;> first | exact ⟨_, _, rfl⟩ | exact absurd ⟨_, rfl⟩ hu
    obtain rfl : _ = c := Option.some.inj ((hm hu').symm.trans hc)
    exact hlast

theorem cumSegs_cover {q : Quad} {p : QPar} {s : Seg ℝ} (hs : s.isDirac = false) : ∀ {l : PF ℝ} {y : ℝ}, s ∈ l →
    ∃ t ∈ cumSegs q p y l, t.lo = s.lo ∧ t.hi = s.hi
  | [], _, h => by simp at h
  | t :: l, y, h => by
    rcases List.mem_cons.1 h with rfl | h'
    · rw [cumSegs_of_not q p y hs]
      exact ⟨_, List.mem_cons_self, cumint_lo .., cumint_hi ..⟩
    · cases ht : t.isDirac
      · rw [cumSegs_of_not q p y ht]
        obtain ⟨u, hu, r⟩ := cumSegs_cover (q := q) (p := p) hs (y := y + t.law.real univ) h'
        exact ⟨u, by simp [hu], r⟩
      · cases t <;> simp [Seg.isDirac] at ht
        rename_i a m
        exact cumSegs_cover (y := y + m) hs h'

theorem cumint_cover {eps : ℝ} (he : 0 ≤ eps) {q : Quad} {p : QPar} (h : ExactQ q p) {l : PF ℝ} (hne : l ≠ [])
    (hw : PF.WF eps l) (hd : PF.Dens l) {c : PF ℝ} (hc : PF.cumint eps q p l = some c) {x : ℝ}
    (hx : PF.NotInGap l x) : ∃ s ∈ c, s.lo ≤ .fin x ∧ .fin x < s.hi := by
  obtain ⟨T, hT1, hT2, u, F, huF, huw, hun, hm, hf⟩ := cumint_shape he h hne hw hd
  have hsub : ∀ t ∈ u :: F, t ∈ c := by
    by_cases hu : ∃ a, u.lo = .fin a
    · obtain ⟨a, ha⟩ := hu
      obtain rfl : _ = c := Option.some.inj ((hf a ha).1.symm.trans hc)
      exact fun t ht => List.mem_cons_of_mem _ ht
    · have hu' : ∃ b f, u = .minf b f := by
        cases u <;> first | exact ⟨_, _, rfl⟩ | exact absurd ⟨_, rfl⟩ hu
      obtain rfl : _ = c := Option.some.inj ((hm hu').symm.trans hc)
      exact fun t ht => ht
  have hxt : Ext.fin x < Ext.pinf := WithBot.coe_lt_coe.2 (WithTop.coe_lt_top x)
  obtain ⟨s0, hs0⟩ := List.exists_mem_of_ne_nil l hne
  rcases hx with ⟨s, hs, hsd, h1, h2⟩ | hx | hx
  · obtain ⟨t, ht, e1, e2⟩ := cumSegs_cover (q := q) (p := p) (y := 0) hsd hs
    exact ⟨t, hsub t (by rw [← huF]; simp [ht]), by rw [e1]; exact h1, by rw [e2]; exact h2⟩
  · -- left of everything
    have hlt : .fin x < u.lo := by
      have hu : u ∈ cumSegs q p 0 l ++ T := by rw [huF]; simp
      rcases List.mem_append.1 hu with hu | hu
      · obtain ⟨s, hs, -, e, -⟩ := mem_cumSegs q p hw.seg hu
        rw [e]; exact hx s hs
      · by_cases hp : ∃ s ∈ l, s.isPInf = true
        · rw [hT2 hp] at hu; simp at hu
        · push Not at hp
          obtain ⟨B, rfl, s, hs, hB⟩ := hT1 (fun s hs => by simpa using hp s hs)
          rw [List.mem_singleton.1 hu]
          show Ext.fin x < .fin B
          rw [← hB]
          have hsm := List.mem_of_getLast? hs
          exact (hx s hsm).trans_le (seg_lo_le_hi (hw.seg s hsm))
    obtain ⟨a, ha⟩ : ∃ a, u.lo = .fin a := by
      cases u <;> first | exact ⟨_, rfl⟩ | exact absurd hlt (by simp [Seg.lo, Ext.ninf])
    obtain rfl : _ = c := Option.some.inj ((hf a ha).1.symm.trans hc)
    exact ⟨.minf a fun _ => 0, by simp, bot_le, by rw [ha] at hlt; exact hlt⟩
  · -- right of everything
    have hp : ∀ s ∈ l, s.isPInf = false := by
      intro s hs
      have := hx s hs
      cases s <;> first | rfl | exact absurd this (not_le.2 hxt)
    obtain ⟨B, hTB, s, hs, hB⟩ := hT1 hp
    refine ⟨.pinf B fun _ => (PF.law l).real univ, hsub _ (by rw [← huF, hTB]; simp), ?_, hxt⟩
    show Ext.fin B ≤ _
    rw [← hB]
    exact hx s (List.mem_of_getLast? hs)

theorem law_singleton {l : PF ℝ} (hd : PF.Dens l) (x : ℝ) : (PF.law l).real {x} = l.massAt x := by
  rw [PF.law_real_eq_sum hd, PF.massAt]
  congr 1
  refine List.map_congr_left fun s hs => ?_
  cases h : s.isDirac
  · rw [Seg.law_real h (hd s hs) (measurableSet_singleton x)]
    rw [Measure.restrict_eq_zero.2 (by simp), integral_zero_measure]
    cases s <;> first | rfl | simp [Seg.isDirac] at h
  · cases s <;> simp [Seg.isDirac] at h
    rw [Seg.law_real_dirac (hd _ hs) (measurableSet_singleton x)]
    simp [Seg.massAt, indicator]

/-! small facts used for concrete functions -/

theorem ext_lt {x y : ℝ} : Ext.fin x < Ext.fin y ↔ x < y := by simp [Ext.fin]
theorem ext_le {x y : ℝ} : Ext.fin x ≤ Ext.fin y ↔ x ≤ y := by simp [Ext.fin]
theorem ext_lt_pinf (x : ℝ) : Ext.fin x < Ext.pinf := WithBot.coe_lt_coe.2 (WithTop.coe_lt_top x)
theorem ext_ninf_le (x : Ext ℝ) : Ext.ninf ≤ x := bot_le

theorem const_dens (a b : ℝ) {c : ℝ} (hc : 0 ≤ c) : (Seg.const a b c).Dens := by
  refine ⟨Filter.Eventually.of_forall fun x => ?_, ?_⟩
  · rw [const_val]; split_ifs <;> simp [hc]
  · have : (fun x => (Seg.const a b c).val x) = (Ico a b).indicator fun _ => c := by
      funext x; rw [const_val]; simp [indicator]
    rw [this, integrable_indicator_iff measurableSet_Ico]
    exact integrableOn_const (by simp)

theorem const_mass (a b : ℝ) {c : ℝ} (hc : 0 ≤ c) (hab : a ≤ b) : (Seg.const a b c).law.real univ = c * (b - a) := by
  rw [Seg.law_real rfl (const_dens a b hc) MeasurableSet.univ, setIntegral_univ]
  have : (fun x => (Seg.const a b c).val x) = (Ico a b).indicator fun _ => c := by
    funext x; rw [const_val]; simp [indicator]
  rw [this, integral_indicator measurableSet_Ico]
  simp [Measure.real, Real.volume_Ico, ENNReal.toReal_ofReal (sub_nonneg.2 hab), mul_comm]

theorem wf_pair {eps : ℝ} {s t : Seg ℝ} (hs : s.WF) (ht : t.WF) (h : s.LeftOf eps t) : PF.WF eps [s, t] :=
  ⟨by simp [hs, ht], by simpa using h⟩

theorem dens_pair {s t : Seg ℝ} (hs : s.Dens) (ht : t.Dens) : PF.Dens [s, t] := by simp [PF.Dens, hs, ht]

theorem law_pair {s t : Seg ℝ} (hd : PF.Dens [s, t]) (A : Set ℝ) :
    (PF.law [s, t]).real A = s.law.real A + t.law.real A := by
  rw [PF.law_real_eq_sum hd]; simp

/-- left of the first assembled piece the CDF is 0 -/
theorem eval_before {eps : ℝ} {q : Quad} {p : QPar} {l : PF ℝ} {a x : ℝ} {u : Seg ℝ} {F : PF ℝ}
    (e : PF.cumint eps q p l = some (.minf a (fun _ => 0) :: u :: F))
    (hw : PF.WF eps (.minf a (fun _ => 0) :: u :: F)) (hn : ∀ s ∈ u :: F, s.isDirac = false) (hx : x < a) :
    PF.cdf eps q p l x = some 0 := by
  rw [PF.cdf, e, Option.bind_some]
  refine evalScalar_pick hw ?_ ?_ ?_
  · intro s hs
    rcases List.mem_cons.1 hs with rfl | hs
    · rfl
    · exact hn s hs
  · intro s hs
    obtain rfl : Seg.minf a (fun _ => 0) = s := by simpa using hs
    rfl
  · unfold pick
    rw [if_pos (by simpa [Seg.hi, Ext.fin] using hx)]
    rfl

theorem cdf_before {eps : ℝ} (he : 0 ≤ eps) {q : Quad} {p : QPar} (h : ExactQ q p) {s : Seg ℝ} {l : PF ℝ}
    (hw : PF.WF eps (s :: l)) (hd : PF.Dens (s :: l)) {u x : ℝ}
    (hu : ∀ T : PF ℝ, ∃ v F, cumSegs q p 0 (s :: l) ++ T = v :: F ∧ v.lo = .fin u) (hx : x < u) :
    PF.cdf eps q p (s :: l) x = some 0 := by
  obtain ⟨T, -, -, v, F, hvF, -, hn, -, hf⟩ := cumint_shape he h (by simp) hw hd
  obtain ⟨v', F', e, hv⟩ := hu T
  rw [hvF] at e
  obtain ⟨e1, hw'⟩ := hf u (by rw [(List.cons.inj e).1]; exact hv)
  exact eval_before e1 hw' hn hx

end Pacal
