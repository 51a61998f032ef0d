import Verif.Law.SpecInterp
import Verif.Law.PropsCdf
import Verif.Segments.PropsAssemble
import Mathlib.MeasureTheory.Integral.IntervalIntegral.Basic

/-! Lemmas for C94. -/

namespace Pacal
open MeasureTheory Set Transform

variable {I : Interpolators} {atInf : (ℝ → ℝ) → Option ℝ} {s t : Seg ℝ} {l r : PF ℝ} {e eps : ℝ}

theorem interpolated_same (I : Interpolators) (s : Seg ℝ) : SamePlace s (s.interpolated I) := by
  rcases s with ⟨p, a, b, f⟩ | _ | _ | _ | _
  · cases p <;> refine ⟨rfl, rfl, rfl, ?_, ?_⟩ <;> intros <;> rename_i h <;> cases h <;> exact ⟨_, rfl⟩
  all_goals refine ⟨rfl, rfl, rfl, ?_, ?_⟩ <;> intros <;> rename_i h <;> first | exact h | exact absurd h (by simp)

theorem interpolatedCum_same (I : Interpolators) (atInf : (ℝ → ℝ) → Option ℝ) (s : Seg ℝ) : SamePlace s (s.interpolatedCum I atInf) := by
  rcases s with _ | _ | ⟨b, f⟩ | ⟨a, f⟩ | _
  · exact interpolated_same I _
  · exact interpolated_same I _
  · unfold Seg.interpolatedCum
    dsimp only
    split_ifs <;> refine ⟨rfl, rfl, rfl, ?_, ?_⟩ <;> intros <;> rename_i h <;> exact absurd h (by simp)
  · unfold Seg.interpolatedCum
    dsimp only
    split_ifs <;> refine ⟨rfl, rfl, rfl, ?_, ?_⟩ <;> intros <;> rename_i h <;> exact absurd h (by simp)
  · exact interpolated_same I _

theorem SamePlace.wf (h : SamePlace s t) (hs : s.WF) : t.WF := by
  obtain ⟨h1, h2, h3, -, -⟩ := h
  cases s <;> cases t <;> simp_all [Seg.lo, Seg.hi, Seg.isDirac, Seg.WF, Ext.fin, Ext.pinf, Ext.ninf]

theorem SamePlace.dirac {a m : ℝ} (h : SamePlace s (.dirac a m)) : s = .dirac a m := by
  obtain ⟨-, -, h3, -, h5⟩ := h
  cases s with
  | dirac b n => exact (h5 b n rfl).symm
  | _ => simp [Seg.isDirac] at h3

theorem same_wf {g : Seg ℝ → Seg ℝ} (hg : ∀ s, SamePlace s (g s)) (hl : PF.WF eps l) : PF.WF eps (l.map g) := by
  refine ⟨?_, ?_⟩
  · intro t ht
    obtain ⟨s, hs, rfl⟩ := List.mem_map.1 ht
    exact (hg s).wf (hl.seg s hs)
  · rw [List.pairwise_map]
    refine hl.sorted.imp fun {s t} h => ⟨?_, ?_⟩
    · rw [(hg s).2.1, (hg t).1]; exact h.1
    · intro a m a' m' e1 e2
      have g1 := hg s; have g2 := hg t
      rw [e1] at g1; rw [e2] at g2
      exact h.2 a m a' m' g1.dirac g2.dirac

theorem same_massAt {g : Seg ℝ → Seg ℝ} (hg : ∀ s, SamePlace s (g s)) (l : PF ℝ) (x : ℝ) : PF.massAt (l.map g) x = l.massAt x := by
  rw [PF.massAt, PF.massAt, List.map_map]
  congr 1
  refine List.map_congr_left fun s _ => ?_
  obtain ⟨-, -, h3, -, h5⟩ := hg s
  show (g s).massAt x = s.massAt x
  cases s with
  | dirac a m => rw [h5 a m rfl]
  | _ => generalize g _ = t at h3; cases t <;> first | rfl | simp [Seg.isDirac] at h3

theorem same_loop {g : Seg ℝ → Seg ℝ} (hg : ∀ s, SamePlace s (g s)) {x : ℝ}
    (he : ∀ s ∈ l, s.lo ≤ .fin x → .fin x < s.hi → |(g s).fn x - s.fn x| ≤ e) :
    ∀ y y', |y' - y| ≤ e → |PF.evalVecLoop x (l.map g) y' - PF.evalVecLoop x l y| ≤ e := by
  induction l with
  | nil => intro y y' h; exact h
  | cons s l ih =>
    intro y y' h
    rw [List.map_cons, PF.evalVecLoop, PF.evalVecLoop, (hg s).1, (hg s).2.1]
    refine ih (fun t ht => he t (by simp [ht])) _ _ ?_
    split_ifs with hc
    · exact he s (by simp) hc.1 hc.2
    · exact h

theorem same_segs {g : Seg ℝ → Seg ℝ} (hg : ∀ s, SamePlace s (g s)) (l : PF ℝ) : PF.segs (l.map g) = (PF.segs l).map g := by
  unfold PF.segs
  rw [List.filter_map]
  congr 1
  refine List.filter_congr fun s _ => ?_
  simp [Function.comp, (hg s).2.2.1]

theorem same_vec {g : Seg ℝ → Seg ℝ} (hg : ∀ s, SamePlace s (g s)) {x : ℝ} (h0 : 0 ≤ e)
    (he : ∀ s ∈ l, s.isDirac = false → s.lo ≤ .fin x → .fin x ≤ s.hi → |(g s).fn x - s.fn x| ≤ e) (hw : ∀ s ∈ l, s.WF) :
    |PF.evalVec (l.map g) x - l.evalVec x| ≤ e := by
  have hm : ∀ s ∈ PF.segs l, s ∈ l ∧ s.isDirac = false := fun s hs => by
    have := List.mem_filter.1 hs
    exact ⟨this.1, by simpa using this.2⟩
  unfold PF.evalVec
  rw [same_segs hg]
  have h1 := same_loop (l := PF.segs l) hg (x := x) (e := e) (fun s hs h1 h2 => he s (hm s hs).1 (hm s hs).2 h1 h2.le) 0 0 (by simpa using h0)
  rcases hl : (PF.segs l).getLast? with _ | s
  · have : ((PF.segs l).map g).getLast? = none := by simp [hl]
    simp only [this]
    exact h1
  · have : ((PF.segs l).map g).getLast? = some (g s) := by simp [hl]
    simp only [this, (hg s).2.1]
    split_ifs with hc
    · have hs := List.mem_of_getLast? hl
      refine he s (hm s hs).1 (hm s hs).2 ?_ hc.le
      rw [hc]
      exact Seg.lo_le_hi (hw s (hm s hs).1)
    · exact h1

theorem same_pick {g : Seg ℝ → Seg ℝ} (hg : ∀ s, SamePlace s (g s)) {x v : ℝ} :
    ∀ {c : PF ℝ}, pick x c = some v → ∃ s ∈ c, .fin x < s.hi ∧ v = s.fn x ∧ pick x (c.map g) = some ((g s).fn x) ∧
      ∀ t ∈ c, PF.WF eps c → t.lo ≤ .fin x → .fin x < t.hi → t = s := by
  intro c
  induction c with
  | nil => intro h; simp [pick] at h
  | cons s c ih =>
    intro h
    unfold pick at h
    by_cases hx : Ext.fin x < s.hi
    · rw [if_pos hx] at h
      refine ⟨s, by simp, hx, (Option.some.inj h).symm, ?_, fun t ht hw h1 h2 => ?_⟩
      · rw [List.map_cons, pick, if_pos (by rw [(hg s).2.1]; exact hx)]
      · rcases List.mem_cons.1 ht with rfl | ht
        · rfl
        · exact absurd (hx.trans_le ((List.pairwise_cons.1 hw.sorted).1 t ht).1) (not_lt.2 h1)
    · rw [if_neg hx] at h
      obtain ⟨t, ht, h1, h2, h3, h4⟩ := ih h
      refine ⟨t, by simp [ht], h1, h2, ?_, fun u hu hw h5 h6 => ?_⟩
      · rw [List.map_cons, pick, if_neg (by rw [(hg s).2.1]; exact hx)]
        exact h3
      · rcases List.mem_cons.1 hu with rfl | hu
        · exact absurd h6 hx
        · exact h4 u hu ⟨fun s hs => hw.seg s (by simp [hs]), (List.pairwise_cons.1 hw.sorted).2⟩ h5 h6

theorem piece_area {a b : ℝ} (hab : a ≤ b) (hs : s.isDirac = false) (ht : t.isDirac = false) (hd : s.Dens) (hd' : t.Dens)
    (h : ∀ x, |t.val x - s.val x| ≤ indicator (Ico a b) (fun _ => e) x) {S : Set ℝ} (hS : MeasurableSet S) :
    |t.law.real S - s.law.real S| ≤ e * (b - a) := by
  obtain ⟨-, i1⟩ := (Seg.dens_of_not hs).1 hd
  obtain ⟨-, i2⟩ := (Seg.dens_of_not ht).1 hd'
  have hi := i2.sub i1
  have hI : Integrable (indicator (Ico a b) fun _ : ℝ => e) := 
    (integrable_indicator_iff measurableSet_Ico).2 (integrableOn_const (by simp))
  rw [Seg.law_real ht hd' hS, Seg.law_real hs hd hS, ← integral_sub i2.integrableOn i1.integrableOn]
  refine abs_integral_le_integral_abs.trans ?_
  refine (setIntegral_le_integral hi.abs (Filter.Eventually.of_forall fun x => abs_nonneg _)).trans ?_
  refine (integral_mono hi.abs hI h).trans ?_
  rw [integral_indicator_const _ measurableSet_Ico]
  simp [hab, mul_comm]

theorem same_law {g : Seg ℝ → Seg ℝ} (hg : ∀ s, SamePlace s (g s)) {L : ℝ} (hL : HasLength l L) {S : Set ℝ} (hS : MeasurableSet S)
    (he : ∀ s ∈ l, ∀ x, s.isDirac = false → s.lo ≤ .fin x → .fin x ≤ s.hi → |(g s).fn x - s.fn x| ≤ e) (hw : ∀ s ∈ l, s.WF)
    (hd : PF.Dens l) (hd' : PF.Dens (l.map g)) : |(PF.law (l.map g)).real S - (PF.law l).real S| ≤ e * L := by
  have key : ∀ {s : Seg ℝ} {l : PF ℝ} {L a b : ℝ}, s.lo = .fin a → s.hi = .fin b → s.isDirac = false → s.WF →
      (∀ t ∈ s :: l, ∀ x, t.isDirac = false → t.lo ≤ .fin x → .fin x ≤ t.hi → |(g t).fn x - t.fn x| ≤ e) →
      PF.Dens (s :: l) → PF.Dens ((s :: l).map g) → |(PF.law (l.map g)).real S - (PF.law l).real S| ≤ e * L →
      |(PF.law ((s :: l).map g)).real S - (PF.law (s :: l)).real S| ≤ e * (b - a + L) := by
    intro s l L a b hlo hhi hs hsw he hd hd' ih
    rw [List.map_cons] at hd' ⊢
    rw [PF.law_real_cons hd, PF.law_real_cons hd']
    have hab : a ≤ b := by have := Seg.lo_le_hi hsw; rw [hlo, hhi] at this; exact ext_le.1 this
    have ht : (g s).isDirac = false := by rw [(hg s).2.2.1]; exact hs
    have h1 := piece_area (e := e) hab hs ht (PF.dens_cons.1 hd).1 (PF.dens_cons.1 hd').1 (fun x => by
      rw [Seg.val, Seg.val, (hg s).1, (hg s).2.1, ht, hs, hlo, hhi, indicator]
      simp only [true_and, mem_Ico, ext_le, ext_lt]
      split_ifs with hx
      · exact he s (by simp) x hs (by rw [hlo]; exact ext_le.2 hx.1) (by rw [hhi]; exact ext_le.2 hx.2.le)
      · simp) hS
    rw [show e * (b - a + L) = e * (b - a) + e * L by ring]
    refine le_trans (le_of_eq ?_) ((abs_add_le _ _).trans (add_le_add h1 ih))
    congr 1; ring
  induction hL with
  | nil => simp
  | fin p a b f hl ih =>
    refine key rfl rfl rfl (hw _ (by simp)) he hd hd' (ih (fun t ht => he t (by simp [ht])) (fun t ht => hw t (by simp [ht]))
      (PF.dens_cons.1 hd).2 (PF.dens_cons.1 hd').2)
  | const a b c hl ih =>
    refine key rfl rfl rfl (hw _ (by simp)) he hd hd' (ih (fun t ht => he t (by simp [ht])) (fun t ht => hw t (by simp [ht]))
      (PF.dens_cons.1 hd).2 (PF.dens_cons.1 hd').2)
  | dirac a m hl ih =>
    have ih := ih (fun t ht => he t (by simp [ht])) (fun t ht => hw t (by simp [ht])) (PF.dens_cons.1 hd).2 (PF.dens_cons.1 hd').2
    rw [List.map_cons] at hd' ⊢
    rw [PF.law_real_cons hd, PF.law_real_cons hd', (hg _).2.2.2.2 a m rfl]
    refine le_trans (le_of_eq ?_) ih
    congr 1; ring

/-- the pieces of the distribution function left and right of a bounded range are constant -/
theorem cumint_outside {eps : ℝ} (he : 0 ≤ eps) {q : Quad} {p : QPar} (h : ExactQ q p) {l : PF ℝ} (hne : l ≠ [])
    (hw : PF.WF eps l) (hd : PF.Dens l) {c : PF ℝ} (hc : PF.cumint eps q p l = some c) {x : ℝ} :
    ((∀ s ∈ l, .fin x < s.lo) → ∃ a, Seg.minf a (fun _ => 0) ∈ c ∧ x < a) ∧
      ((∀ s ∈ l, s.hi ≤ .fin x) → ∃ a, Seg.pinf a (fun _ => (PF.law l).real univ) ∈ c ∧ a ≤ x) := by
  obtain ⟨T, hT1, hT2, u, F, huF, huw, hun, hm, hf⟩ := cumint_shape he h hne hw hd
  have hsub : ∀ t ∈ u :: F, t ∈ c := by
    by_cases hu : ∃ a, u.lo = .fin a
    · obtain ⟨a, ha⟩ := hu
      obtain rfl : _ = c := Option.some.inj ((hf a ha).1.symm.trans hc)
      exact fun t ht => List.mem_cons_of_mem _ ht
    · have hu' : ∃ b f, u = .minf b f := by
        cases u <;> first | exact ⟨_, _, rfl⟩ | exact absurd ⟨_, rfl⟩ hu
      obtain rfl : _ = c := Option.some.inj ((hm hu').symm.trans hc)
      exact fun t ht => ht
  refine ⟨fun hx => ?_, fun hx => ?_⟩
  · have hlt : .fin x < u.lo := by
      have hu : u ∈ cumSegs q p 0 l ++ T := by rw [huF]; simp
      rcases List.mem_append.1 hu with hu | hu
      · obtain ⟨s, hs, -, e, -⟩ := mem_cumSegs q p hw.seg hu
        rw [e]; exact hx s hs
      · by_cases hp : ∃ s ∈ l, s.isPInf = true
        · rw [hT2 hp] at hu; simp at hu
        · push Not at hp
          obtain ⟨B, rfl, s, hs, hB⟩ := hT1 (fun s hs => by simpa using hp s hs)
          rw [List.mem_singleton.1 hu]
          show Ext.fin x < .fin B
          rw [← hB]
          have hsm := List.mem_of_getLast? hs
          exact (hx s hsm).trans_le (seg_lo_le_hi (hw.seg s hsm))
    obtain ⟨a, ha⟩ : ∃ a, u.lo = .fin a := by
      cases u <;> first | exact ⟨_, rfl⟩ | exact absurd hlt (by simp [Seg.lo, Ext.ninf])
    obtain rfl : _ = c := Option.some.inj ((hf a ha).1.symm.trans hc)
    exact ⟨a, by simp, by rw [ha] at hlt; exact ext_lt.1 hlt⟩
  · have hp : ∀ s ∈ l, s.isPInf = false := by
      intro s hs
      have := hx s hs
      cases s <;> first | rfl | exact absurd this (not_le.2 (ext_lt_pinf x))
    obtain ⟨B, hTB, s, hs, hB⟩ := hT1 hp
    refine ⟨B, hsub _ (by rw [← huF, hTB]; simp), ?_⟩
    have := hx s (List.mem_of_getLast? hs)
    rw [hB] at this
    exact ext_le.1 this

/-- the error on a piece -/
theorem error_piece {e : ℝ} {I : Interpolators} {l : PF ℝ} (h : ErrorAtMost e I l) :
    ∀ s ∈ l, ∀ x, s.isDirac = false → s.lo ≤ .fin x → .fin x ≤ s.hi → |(s.interpolated I).fn x - s.fn x| ≤ e := by
  intro s hs x hd h1 h2
  rcases s with ⟨p, a, b, f⟩ | ⟨a, b, c⟩ | ⟨b, f⟩ | ⟨a, f⟩ | _
  · cases p
    · exact h.plain a b f hs x (Ext.fin_le_fin.1 h1) (Ext.fin_le_fin.1 h2)
    · exact h.left a b f hs x (Ext.fin_le_fin.1 h1) (Ext.fin_le_fin.1 h2)
    · exact h.right a b f hs x (Ext.fin_le_fin.1 h1) (Ext.fin_le_fin.1 h2)
  · exact h.const a b c hs x (Ext.fin_le_fin.1 h1) (Ext.fin_le_fin.1 h2)
  · exact h.minf b f hs x (Ext.fin_le_fin.1 h2)
  · exact h.pinf a f hs x (Ext.fin_le_fin.1 h1)
  · simp [Seg.isDirac] at hd

end Pacal
