import Verif.Push.FoldAll
import Verif.Push.Builtin

/-! Lemmas about `probComposition` and `copyComposition`. -/

namespace Pacal
open MeasureTheory Set

theorem ext_trich (e : Ext ℝ) : e = .ninf ∨ (∃ a, e = .fin a) ∨ e = .pinf :=
  ext_fin_cases (P := fun e => e = .ninf ∨ (∃ a, e = .fin a) ∨ e = .pinf) (.inl rfl) (fun a => .inr (.inl ⟨a, rfl⟩))
    (.inr (.inr rfl)) e

@[simp] theorem isInf_fin (a : ℝ) : (Ext.fin a).isInf = false := rfl
@[simp] theorem isInf_ninf : (Ext.ninf : Ext ℝ).isInf = true := rfl
@[simp] theorem isInf_pinf : (Ext.pinf : Ext ℝ).isInf = true := rfl
@[simp] theorem mkMinf_fin (f : ℝ → ℝ) (a : ℝ) : mkMinf f (.fin a) = some (.minf a f) := rfl
@[simp] theorem mkPinf_fin (f : ℝ → ℝ) (a : ℝ) : mkPinf f (.fin a) = some (.pinf a f) := rfl
@[simp] theorem mkFin_fin (p : Pole) (f : ℝ → ℝ) (a b : ℝ) : mkFin p f (.fin a) (.fin b) = some (.fin p a b f) := rfl
@[simp] theorem mkDirac_fin (m a : ℝ) : mkDirac m (.fin a) = some (.dirac a m) := rfl

theorem not_lt_ninf (e : Ext ℝ) : ¬ e < .ninf := not_lt.2 (ninf_le_ext e)
theorem not_pinf_lt (e : Ext ℝ) : ¬ .pinf < e := not_lt.2 (ext_le_pinf e)

variable {G : Ext ℝ → Ext ℝ} {ginv dginv : ℝ → ℝ} {pole : Bool} {mass : Seg ℝ → ℝ} {s : Seg ℝ}

theorem comp_incr (hs : s.isDirac = false) (hG : G s.lo < G s.hi) (hk : SignOK G s.lo s.hi) :
    ∃ t, Seg.probComposition G ginv dginv pole mass s = some t ∧ t.isDirac = false ∧ t.lo = G s.lo ∧ t.hi = G s.hi ∧
      t.fn = compFn s.fn ginv dginv := by
  obtain ⟨k1, k2, k3, k4⟩ := hk
  unfold Seg.probComposition
  rw [hs]
  rcases ext_trich (G s.lo) with h1 | ⟨a, h1⟩ | h1 <;> rcases ext_trich (G s.hi) with h2 | ⟨b, h2⟩ | h2 <;>
    rw [h1, h2] at hG <;> rw [h1, h2]
  · exact absurd hG (lt_irrefl _)
  · have := k1 h1
    rw [h2] at this
    refine ⟨.minf b (compFn s.fn ginv dginv), ?_, rfl, rfl, rfl, rfl⟩
    simp only [Bool.false_eq_true, if_false, isInf_ninf, if_true, if_pos this, mkMinf_fin]
  · have := k1 h1
    rw [h2] at this
    exact absurd this (not_pinf_lt _)
  · exact absurd hG (not_lt_ninf _)
  · obtain ⟨p, hp⟩ : ∃ p, (if Ext.fin a = .fin 0 ∧ pole = true then mkFin .left (compFn s.fn ginv dginv) (.fin a) (.fin b)
        else mkFin .none (compFn s.fn ginv dginv) (.fin a) (.fin b)) = some (.fin p a b (compFn s.fn ginv dginv)) := by
      split_ifs
      · exact ⟨_, rfl⟩
      · exact ⟨_, rfl⟩
    refine ⟨.fin p a b (compFn s.fn ginv dginv), ?_, rfl, rfl, rfl, rfl⟩
    simp only [Bool.false_eq_true, if_false, isInf_fin, if_pos hG]
    exact hp
  · have := k3 h2
    rw [h1] at this
    refine ⟨.pinf a (compFn s.fn ginv dginv), ?_, rfl, rfl, rfl, rfl⟩
    simp only [Bool.false_eq_true, if_false, isInf_fin, isInf_pinf, if_true, gt_iff_lt, if_pos this, mkPinf_fin]
  · exact absurd hG (not_pinf_lt _)
  · exact absurd hG (not_pinf_lt _)
  · exact absurd hG (not_pinf_lt _)

theorem comp_decr (hs : s.isDirac = false) (hG : G s.hi < G s.lo) (hk : SignOK G s.lo s.hi) :
    ∃ t, Seg.probComposition G ginv dginv pole mass s = some t ∧ t.isDirac = false ∧ t.lo = G s.hi ∧ t.hi = G s.lo ∧
      t.fn = compFn s.fn ginv dginv := by
  obtain ⟨k1, k2, k3, k4⟩ := hk
  unfold Seg.probComposition
  rw [hs]
  rcases ext_trich (G s.lo) with h1 | ⟨a, h1⟩ | h1 <;> rcases ext_trich (G s.hi) with h2 | ⟨b, h2⟩ | h2 <;>
    rw [h1, h2] at hG <;> rw [h1, h2]
  · exact absurd hG (lt_irrefl _)
  · exact absurd hG (not_lt_ninf _)
  · exact absurd hG (not_lt_ninf _)
  · have := k4 h2
    rw [h1] at this
    refine ⟨.minf a (compFn s.fn ginv dginv), ?_, rfl, rfl, rfl, rfl⟩
    simp only [Bool.false_eq_true, if_false, isInf_fin, isInf_ninf, if_true, gt_iff_lt, if_neg (not_lt.2 this), mkMinf_fin]
  · obtain ⟨p, hp⟩ : ∃ p, (if Ext.fin b = .fin 0 ∧ pole = true then mkFin .right (compFn s.fn ginv dginv) (.fin b) (.fin a)
        else mkFin .none (compFn s.fn ginv dginv) (.fin b) (.fin a)) = some (.fin p b a (compFn s.fn ginv dginv)) := by
      split_ifs
      · exact ⟨_, rfl⟩
      · exact ⟨_, rfl⟩
    refine ⟨.fin p b a (compFn s.fn ginv dginv), ?_, rfl, rfl, rfl, rfl⟩
    simp only [Bool.false_eq_true, if_false, isInf_fin, if_neg (not_lt.2 hG.le), if_neg hG.ne']
    exact hp
  · exact absurd hG (not_pinf_lt _)
  · have := k4 h2
    rw [h1] at this
    exact absurd this (not_pinf_le _)
  · have := k2 h1
    rw [h2] at this
    refine ⟨.pinf b (compFn s.fn ginv dginv), ?_, rfl, rfl, rfl, rfl⟩
    simp only [Bool.false_eq_true, if_false, isInf_pinf, if_true, if_neg (not_lt.2 this), mkPinf_fin]
  · exact absurd hG (lt_irrefl _)

namespace MonoPair
variable {lo hi : Ext ℝ} {g h h' : ℝ → ℝ}

/-- inside the interval `G` is finite and equal to `g` -/
theorem val (H : MonoPair lo hi G g h h') {x : ℝ} (h1 : lo < .fin x) (h2 : .fin x < hi) : G (.fin x) = .fin (g x) := by
  have hlo : lo ∈ Icc lo hi := ⟨le_rfl, (h1.trans h2).le⟩
  have hhi : hi ∈ Icc lo hi := ⟨(h1.trans h2).le, le_rfl⟩
  have hx : Ext.fin x ∈ Icc lo hi := ⟨h1.le, h2.le⟩
  have hb : (G lo < G (.fin x) ∧ G (.fin x) < G hi) ∨ (G hi < G (.fin x) ∧ G (.fin x) < G lo) := by
    rcases H.mono with hm | hm
    · exact .inl ⟨hm hlo hx h1, hm hx hhi h2⟩
    · exact .inr ⟨hm hx hhi h2, hm hlo hx h1⟩
  rcases ext_trich (G (.fin x)) with e | ⟨y, e⟩ | e
  · rw [e] at hb
    rcases hb with hb | hb
    · exact absurd hb.1 (not_lt_ninf _)
    · exact absurd hb.1 (not_lt_ninf _)
  · rw [e, H.real x y h1.le h2.le e]
  · rw [e] at hb
    rcases hb with hb | hb
    · exact absurd hb.2 (not_pinf_lt _)
    · exact absurd hb.2 (not_pinf_lt _)

variable {t : Seg ℝ}

/-- the image of a piece in `[lo, hi]` -/
theorem image (H : MonoPair lo hi G g h h') (h1 : lo ≤ s.lo) (h2 : s.hi ≤ hi) (h3 : s.lo < s.hi)
    (ht : (StrictMonoOn G (Icc lo hi) ∧ t.lo = G s.lo ∧ t.hi = G s.hi) ∨
      (StrictAntiOn G (Icc lo hi) ∧ t.lo = G s.hi ∧ t.hi = G s.lo)) (hf : t.fn = compFn s.fn h h') :
    ImageOf s t g h h' := by
  have hlo : s.lo ∈ Icc lo hi := ⟨h1, h3.le.trans h2⟩
  have hhi : s.hi ∈ Icc lo hi := ⟨h1.trans h3.le, h2⟩
  have hl : lo ∈ Icc lo hi := ⟨le_rfl, h1.trans (h3.le.trans h2)⟩
  have hh : hi ∈ Icc lo hi := ⟨h1.trans (h3.le.trans h2), le_rfl⟩
  have hin : ∀ x ∈ s.inner, lo < .fin x ∧ .fin x < hi := fun x hx => ⟨lt_of_le_of_lt h1 hx.1, lt_of_lt_of_le hx.2 h2⟩
  -- the image of interior points
  have key : ∀ x, lo < .fin x → .fin x < hi → (g x ∈ t.inner ↔ x ∈ s.inner) := by
    intro x hx1 hx2
    have hx : Ext.fin x ∈ Icc lo hi := ⟨hx1.le, hx2.le⟩
    simp only [Seg.inner, mem_ofPred_eq]
    rw [← H.val hx1 hx2]
    rcases ht with ⟨hm, e1, e2⟩ | ⟨hm, e1, e2⟩
    · rw [e1, e2, hm.lt_iff_lt hlo hx, hm.lt_iff_lt hx hhi]
    · rw [e1, e2, hm.lt_iff_gt hhi hx, hm.lt_iff_gt hx hlo]; exact and_comm
  have honto : ∀ y ∈ t.inner, ∃ x ∈ s.inner, g x = y := by
    intro y hy
    obtain ⟨x, hx1, hx2, rfl⟩ := H.onto y (by
      rcases ht with ⟨hm, e1, e2⟩ | ⟨hm, e1, e2⟩
      · left
        have := hy.1; have h' := hy.2
        rw [e1] at this; rw [e2] at h'
        exact ⟨lt_of_le_of_lt (hm.monotoneOn hl hlo h1) this, lt_of_lt_of_le h' (hm.monotoneOn hhi hh h2)⟩
      · right
        have := hy.1; have h' := hy.2
        rw [e1] at this; rw [e2] at h'
        exact ⟨lt_of_le_of_lt (hm.antitoneOn hhi hh h2) this, lt_of_lt_of_le h' (hm.antitoneOn hl hlo h1)⟩)
    exact ⟨x, (key x hx1 hx2).1 hy, rfl⟩
  refine ⟨H.meas, fun x hx => (H.diff x (hin x hx).1 (hin x hx).2).differentiableWithinAt, fun y hy => ?_, fun y hy => ?_,
    fun x hx => ?_, fun y _ => by rw [hf]; rfl⟩
  · obtain ⟨x, hx, rfl⟩ := honto y hy
    exact (H.deriv x (hin x hx).1 (hin x hx).2).hasDerivWithinAt
  · obtain ⟨x, hx, rfl⟩ := honto y hy
    rw [H.left x (hin x hx).1 (hin x hx).2]
    exact ⟨hx, rfl⟩
  · exact ⟨(key x (hin x hx).1 (hin x hx).2).2 hx, H.left x (hin x hx).1 (hin x hx).2⟩

/-- `probComposition` on one piece -/
theorem piece (H : MonoPair lo hi G g h h') (hw : s.WF) (hd : s.Dens) (h1 : lo ≤ s.lo) (h2 : s.hi ≤ hi)
    (hk : s.isDirac = false → SignOK G s.lo s.hi) (ha : ∀ a m, s = .dirac a m → ∃ y, G (.fin a) = .fin y) :
    ∃ t, Seg.probComposition G h h' pole mass s = some t ∧ FoldPiece g s t ∧
      ((StrictMonoOn G (Icc lo hi) ∧ t.lo = G s.lo ∧ t.hi = G s.hi) ∨
        (StrictAntiOn G (Icc lo hi) ∧ t.lo = G s.hi ∧ t.hi = G s.lo)) := by
  cases hs : s.isDirac
  · have h3 := (Seg.wf_iff hs).1 hw
    have hlo : s.lo ∈ Icc lo hi := ⟨h1, h3.le.trans h2⟩
    have hhi : s.hi ∈ Icc lo hi := ⟨h1.trans h3.le, h2⟩
    rcases H.mono with hm | hm
    · obtain ⟨t, e1, e2, e3, e4, e5⟩ := comp_incr (ginv := h) (dginv := h') (pole := pole) (mass := mass) hs (hm hlo hhi h3) (hk hs)
      have hI : (StrictMonoOn G (Icc lo hi) ∧ t.lo = G s.lo ∧ t.hi = G s.hi) ∨
        (StrictAntiOn G (Icc lo hi) ∧ t.lo = G s.hi ∧ t.hi = G s.lo) := .inl ⟨hm, e3, e4⟩
      have M := H.image h1 h2 h3 hI e5
      refine ⟨t, e1, ⟨?_, M.dens hs e2 hd, M.law hs e2, e2.trans hs.symm, ?_⟩, hI⟩
      · rw [Seg.wf_iff e2, e3, e4]; exact hm hlo hhi h3
      · rintro a m rfl; simp [Seg.isDirac] at hs
    · obtain ⟨t, e1, e2, e3, e4, e5⟩ := comp_decr (ginv := h) (dginv := h') (pole := pole) (mass := mass) hs (hm hlo hhi h3) (hk hs)
      have hI : (StrictMonoOn G (Icc lo hi) ∧ t.lo = G s.lo ∧ t.hi = G s.hi) ∨
        (StrictAntiOn G (Icc lo hi) ∧ t.lo = G s.hi ∧ t.hi = G s.lo) := .inr ⟨hm, e3, e4⟩
      have M := H.image h1 h2 h3 hI e5
      refine ⟨t, e1, ⟨?_, M.dens hs e2 hd, M.law hs e2, e2.trans hs.symm, ?_⟩, hI⟩
      · rw [Seg.wf_iff e2, e3, e4]; exact hm hlo hhi h3
      · rintro a m rfl; simp [Seg.isDirac] at hs
  · cases s <;> simp [Seg.isDirac] at hs
    rename_i a m
    obtain ⟨y, hy⟩ := ha a m rfl
    have hg := H.real a y h1 h2 hy
    refine ⟨.dirac (g a) m, ?_, ⟨trivial, hd, dirac_law_map H.meas a m, rfl, ?_⟩, ?_⟩
    · unfold Seg.probComposition
      have e : G (Seg.dirac a m).lo = .fin y := hy
      simp only [show (Seg.dirac a m).isDirac = true from rfl, if_true, e, hg]; rfl
    · intro a' m' e; cases e; rfl
    · rcases H.mono with hm | hm
      · exact .inl ⟨hm, by show _ = G (.fin a); rw [hy, hg]; rfl, by show _ = G (.fin a); rw [hy, hg]; rfl⟩
      · exact .inr ⟨hm, by show _ = G (.fin a); rw [hy, hg]; rfl, by show _ = G (.fin a); rw [hy, hg]; rfl⟩

end MonoPair

theorem mapAll_eq {α β : Type} {T : α → Option β} {T' : α → β} : ∀ {l : List α}, (∀ a ∈ l, T a = some (T' a)) →
    mapAll T l = some (l.map T')
  | [], _ => rfl
  | a :: l, h => by
    rw [mapAll, h a (by simp), Option.bind_some, mapAll_eq fun b hb => h b (by simp [hb])]
    rfl

/-- the loop over all pieces -/
theorem comp_loop {eps : ℝ} (he : 0 ≤ eps) {lo hi : Ext ℝ} {g h h' : ℝ → ℝ} (H : MonoPair lo hi G g h h') {l : PF ℝ}
    (hl : PF.WF eps l) (hd : PF.Dens l) (hr : ∀ s ∈ l, lo ≤ s.lo ∧ s.hi ≤ hi)
    (hk : ∀ s ∈ l, s.isDirac = false → SignOK G s.lo s.hi) (hf : ∀ a m, Seg.dirac a m ∈ l → ∃ y, G (.fin a) = .fin y)
    (ha : PF.ImagesApart eps g l) :
    ∃ r, PF.mapLoop eps (Seg.probComposition G h h' pole mass) l = some r ∧ PF.WF eps r ∧ PF.Dens r ∧
      PF.law r = (PF.law l).map g ∧ (∀ t ∈ r, ∃ s ∈ l, t.isDirac = s.isDirac ∧
        ((StrictMonoOn G (Icc lo hi) ∧ t.lo = G s.lo ∧ t.hi = G s.hi) ∨
        (StrictAntiOn G (Icc lo hi) ∧ t.lo = G s.hi ∧ t.hi = G s.lo))) ∧
      (∀ b n, Seg.dirac b n ∈ r → ∃ a m, Seg.dirac a m ∈ l ∧ b = g a) := by
  have hT : ∀ s, ∃ t, s ∈ l → (Seg.probComposition G h h' pole mass s = some t ∧ FoldPiece g s t ∧
      ((StrictMonoOn G (Icc lo hi) ∧ t.lo = G s.lo ∧ t.hi = G s.hi) ∨
        (StrictAntiOn G (Icc lo hi) ∧ t.lo = G s.hi ∧ t.hi = G s.lo))) := by
    intro s
    by_cases hs : s ∈ l
    · obtain ⟨t, ht⟩ := H.piece (pole := pole) (mass := mass) (hl.seg s hs) (hd s hs) (hr s hs).1 (hr s hs).2 (hk s hs)
        (by rintro a m rfl; exact hf a m hs)
      exact ⟨t, fun _ => ht⟩
    · exact ⟨s, fun h => absurd h hs⟩
  choose T' hT' using hT
  have hle : ∀ s ∈ l, s.lo ≤ s.hi := by
    intro s hs
    cases hsd : s.isDirac
    · exact ((Seg.wf_iff hsd).1 (hl.seg s hs)).le
    · cases s <;> simp [Seg.isDirac] at hsd
      exact le_rfl
  have hp : l.Pairwise fun s t => (T' s).hi ≤ (T' t).lo ∨ (T' t).hi ≤ (T' s).lo := by
    refine hl.sorted.imp_of_mem fun {s t} h1 h2 hst => ?_
    have a1 : s.hi ∈ Icc lo hi := ⟨(hr s h1).1.trans (hle s h1), (hr s h1).2⟩
    have a2 : t.lo ∈ Icc lo hi := ⟨(hr t h2).1, (hle t h2).trans (hr t h2).2⟩
    rcases (hT' s h1).2.2 with ⟨hm, e1, e2⟩ | ⟨hm, e1, e2⟩
    · rcases (hT' t h2).2.2 with ⟨hm', e1', e2'⟩ | ⟨hm', e1', e2'⟩
      · left; rw [e2, e1']; exact hm.monotoneOn a1 a2 hst.1
      · by_cases heq : s.hi = t.lo
        · by_cases hlo : t.hi = t.lo
          · left; rw [e2, e1', heq, hlo]
          · exact absurd (hm a2 ⟨(hr t h2).1.trans (hle t h2), (hr t h2).2⟩ (lt_of_le_of_ne (hle t h2) (Ne.symm hlo)))
              (not_lt.2 (hm' a2 ⟨(hr t h2).1.trans (hle t h2), (hr t h2).2⟩ (lt_of_le_of_ne (hle t h2) (Ne.symm hlo))).le)
        · exact absurd (hm a1 a2 (lt_of_le_of_ne hst.1 heq)) (not_lt.2 (hm' a1 a2 (lt_of_le_of_ne hst.1 heq)).le)
    · rcases (hT' t h2).2.2 with ⟨hm', e1', e2'⟩ | ⟨hm', e1', e2'⟩
      · by_cases heq : s.hi = t.lo
        · by_cases hlo : t.hi = t.lo
          · right; rw [e1, e2', heq, hlo]
          · exact absurd (hm' a2 ⟨(hr t h2).1.trans (hle t h2), (hr t h2).2⟩ (lt_of_le_of_ne (hle t h2) (Ne.symm hlo)))
              (not_lt.2 (hm a2 ⟨(hr t h2).1.trans (hle t h2), (hr t h2).2⟩ (lt_of_le_of_ne (hle t h2) (Ne.symm hlo))).le)
        · exact absurd (hm' a1 a2 (lt_of_le_of_ne hst.1 heq)) (not_lt.2 (hm a1 a2 (lt_of_le_of_ne hst.1 heq)).le)
      · right; rw [e1, e2']; exact hm.antitoneOn a1 a2 hst.1
  obtain ⟨r, r1, r2, r3, r4, r5⟩ := fold_half he H.meas (l := l) (T' := T') (fun s hs => (hT' s hs).2.1) hp ha
  refine ⟨r, ?_, r2, r3, r4, ?_, r5⟩
  · rw [PF.mapLoop, mapAll_eq fun s hs => (hT' s hs).1, Option.bind_some, r1]
  · have hc : (l.map T').Pairwise (Seg.Compat eps) := by
      rw [List.pairwise_map]
      refine hp.imp_of_mem fun {s t} h1 h2 h => fold_compat (hT' s h1).2.1 (hT' t h2).2.1 h ?_
      rintro a m a' m' rfl rfl
      exact ha a m a' m' h1 h2
    obtain ⟨r', q1, -, -, -, -, -, q5⟩ := addAll_law he (ss := l.map T')
      (by simpa using fun s hs => (hT' s hs).2.1.wf) hc (by
        intro t ht
        obtain ⟨s, hs, rfl⟩ := List.mem_map.1 ht
        exact (hT' s hs).2.1.dens)
    obtain rfl : r = r' := by rw [r1] at q1; exact Option.some.inj q1
    intro t ht
    rcases q5 t ht with h | ⟨a, m, m', rfl, h⟩
    · obtain ⟨s, hs, rfl⟩ := List.mem_map.1 h
      exact ⟨s, hs, (hT' s hs).2.1.dirac, (hT' s hs).2.2⟩
    · obtain ⟨s, hs, e⟩ := List.mem_map.1 h
      have := hT' s hs
      rw [e] at this
      exact ⟨s, hs, this.2.1.dirac, this.2.2⟩

/-- pieces of a segment after the split at 0 -/
theorem splitSeg_zero {s t : Seg ℝ} (hw : s.WF) (ht : t ∈ PF.splitSeg [0] s) :
    (t.lo, t.hi) ∈ s.cutEnds ∧ t.isDirac = s.isDirac := by
  have e0 : ∀ a b : ℝ, a < 0 → 0 < b → [(0 : ℝ)].filter (fun p => decide (a < p ∧ p < b)) = [0] := by
    intro a b h1 h2; simp [h1, h2]
  have e1 : ∀ a b : ℝ, ¬ (a < 0 ∧ 0 < b) → [(0 : ℝ)].filter (fun p => decide (a < p ∧ p < b)) = [] := by
    intro a b h1; simpa using h1
  have fin : ∀ (p : Pole) (a b : ℝ) (f : ℝ → ℝ), t ∈ PF.splitFin p a b f a ([(0 : ℝ)].filter (fun p => decide (a < p ∧ p < b))) →
      (t.lo, t.hi) ∈ (if Ext.fin a < .fin 0 ∧ .fin 0 < Ext.fin b then [(Ext.fin a, .fin 0), (.fin 0, Ext.fin b)]
        else [(Ext.fin a, Ext.fin b)]) ∧ t.isDirac = false := by
    intro p a b f h
    by_cases hc : a < 0 ∧ 0 < b
    · rw [e0 a b hc.1 hc.2] at h
      rw [if_pos ⟨extFin_lt.2 hc.1, extFin_lt.2 hc.2⟩]
      simp only [PF.splitFin, List.mem_cons, List.not_mem_nil, or_false] at h
      rcases h with rfl | rfl <;> simp [Seg.lo, Seg.hi, Seg.isDirac]
    · rw [e1 a b hc] at h
      rw [if_neg (by rwa [extFin_lt, extFin_lt])]
      simp only [PF.splitFin, List.mem_cons, List.not_mem_nil, or_false] at h
      subst h
      simp [Seg.lo, Seg.hi, Seg.isDirac]
  cases s with
  | fin p a b f => exact fin p a b f ht
  | const a b c => exact fin .none a b _ ht
  | minf b f =>
    simp only [PF.splitSeg] at ht
    unfold Seg.cutEnds
    by_cases hc : 0 < b
    · rw [if_pos ⟨ninf_lt_extFin _, extFin_lt.2 hc⟩]
      rw [show [(0 : ℝ)].filter (fun p => decide (p < b)) = [0] by simp [hc]] at ht
      simp only [PF.splitFin, List.mem_cons, List.not_mem_nil, or_false] at ht
      rcases ht with rfl | rfl <;> simp [Seg.lo, Seg.hi, Seg.isDirac]
    · rw [if_neg (by rintro ⟨-, h⟩; exact hc (extFin_lt.1 h))]
      rw [show [(0 : ℝ)].filter (fun p => decide (p < b)) = [] by simpa using hc] at ht
      simp only [List.mem_cons, List.not_mem_nil, or_false] at ht
      subst ht
      simp [Seg.lo, Seg.hi, Seg.isDirac]
  | pinf a f =>
    simp only [PF.splitSeg] at ht
    unfold Seg.cutEnds
    by_cases hc : a < 0
    · rw [if_pos ⟨extFin_lt.2 hc, extFin_lt_pinf _⟩]
      rw [show [(0 : ℝ)].filter (fun p => decide (a < p)) = [0] by simp [hc]] at ht
      simp only [PF.splitPInf, List.mem_cons, List.not_mem_nil, or_false] at ht
      rcases ht with rfl | rfl <;> simp [Seg.lo, Seg.hi, Seg.isDirac]
    · rw [if_neg (by rintro ⟨h, -⟩; exact hc (extFin_lt.1 h))]
      rw [show [(0 : ℝ)].filter (fun p => decide (a < p)) = [] by simpa using hc] at ht
      simp only [PF.splitPInf, List.mem_cons, List.not_mem_nil, or_false] at ht
      subst ht
      simp [Seg.lo, Seg.hi, Seg.isDirac]
  | dirac a m =>
    simp only [PF.splitSeg, List.mem_cons, List.not_mem_nil, or_false] at ht
    subst ht
    unfold Seg.cutEnds
    rw [if_neg (by rintro ⟨h1, h2⟩; exact absurd (h1.trans h2) (lt_irrefl _))]
    simp

theorem cutEnds_within {s : Seg ℝ} {p q : Ext ℝ} (h : (p, q) ∈ s.cutEnds) : s.lo ≤ p ∧ q ≤ s.hi := by
  unfold Seg.cutEnds at h
  split_ifs at h with hc
  · simp only [List.mem_cons, Prod.mk.injEq, List.not_mem_nil, or_false] at h
    rcases h with ⟨rfl, rfl⟩ | ⟨rfl, rfl⟩
    · exact ⟨le_rfl, hc.2.le⟩
    · exact ⟨hc.1.le, le_rfl⟩
  · simp only [List.mem_cons, Prod.mk.injEq, List.not_mem_nil, or_false] at h
    obtain ⟨rfl, rfl⟩ := h
    exact ⟨le_rfl, le_rfl⟩

/-- `copyComposition` -/
theorem comp_all {eps : ℝ} (he : 0 ≤ eps) {lo hi : Ext ℝ} {g h h' : ℝ → ℝ} (H : MonoPair lo hi G g h h') {l : PF ℝ}
    (hl : PF.WF eps l) (hd : PF.Dens l) (hr : ∀ s ∈ l, lo ≤ s.lo ∧ s.hi ≤ hi)
    (hk : ∀ s ∈ l, s.isDirac = false → ∀ p q, (p, q) ∈ s.cutEnds → SignOK G p q)
    (hf : ∀ a m, Seg.dirac a m ∈ l → ∃ y, G (.fin a) = .fin y) (ha : PF.ImagesApart eps g l) :
    ∃ r, PF.copyComposition eps l G h h' pole mass = some r ∧ PF.WF eps r ∧ PF.Dens r ∧
      PF.law r = (PF.law l).map g ∧ (∀ t ∈ r, ∃ s ∈ l, ∃ p q, (p, q) ∈ s.cutEnds ∧ t.isDirac = s.isDirac ∧
        ((StrictMonoOn G (Icc lo hi) ∧ t.lo = G p ∧ t.hi = G q) ∨
        (StrictAntiOn G (Icc lo hi) ∧ t.lo = G q ∧ t.hi = G p))) ∧
      (∀ b n, Seg.dirac b n ∈ r → ∃ a m, Seg.dirac a m ∈ l ∧ b = g a) := by
  have hp0 : [(0 : ℝ)].Pairwise (· < ·) := by simp
  obtain ⟨l', e1, hw', hd', hlaw⟩ := C04_law he [0] hp0 l hl hd
  have e2 := splitByPoints_eq he hp0 hl
  obtain rfl : l' = l.flatMap (PF.splitSeg [0]) := by rw [e1] at e2; exact Option.some.inj e2
  have hmem : ∀ t ∈ l.flatMap (PF.splitSeg [0]), ∃ s ∈ l, (t.lo, t.hi) ∈ s.cutEnds ∧ t.isDirac = s.isDirac := by
    intro t ht
    obtain ⟨s, hs, hts⟩ := List.mem_flatMap.1 ht
    exact ⟨s, hs, splitSeg_zero (hl.seg s hs) hts⟩
  have hdir : ∀ a m, Seg.dirac a m ∈ l.flatMap (PF.splitSeg [0]) → Seg.dirac a m ∈ l := by
    intro a m h
    have := split_diracs (eps := eps) hp0 hl
    rw [← mem_diracs, this, mem_diracs] at h
    exact h
  obtain ⟨r, r1, r2, r3, r4, r5, r6⟩ := comp_loop (pole := pole) (mass := mass) he H hw' hd'
    (fun t ht => by
      obtain ⟨s, hs, h1, -⟩ := hmem t ht
      exact ⟨(hr s hs).1.trans (cutEnds_within h1).1, (cutEnds_within h1).2.trans (hr s hs).2⟩)
    (fun t ht h => by
      obtain ⟨s, hs, h1, h2⟩ := hmem t ht
      exact hk s hs (h2 ▸ h) _ _ h1)
    (fun a m h => hf a m (hdir a m h))
    (fun a m a' m' h1 h2 => ha a m a' m' (hdir _ _ h1) (hdir _ _ h2))
  refine ⟨r, ?_, r2, r3, by rw [r4, hlaw], ?_, ?_⟩
  · rw [PF.copyComposition, e1, Option.bind_some, r1]
  · intro t ht
    obtain ⟨s', hs', q1, q2⟩ := r5 t ht
    obtain ⟨s, hs, h1, h2⟩ := hmem s' hs'
    exact ⟨s, hs, _, _, h1, q1.trans h2, q2⟩
  · intro b n hb
    obtain ⟨a, m, h1, h2⟩ := r6 b n hb
    exact ⟨a, m, hdir a m h1, h2⟩

end Pacal
