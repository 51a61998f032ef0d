import Verif.Segments.Eval

/-! Helper lemmas about `splitByPoints` and `restrictToInterval`. -/

set_option linter.unusedSectionVars false

namespace Pacal
variable {K : Type*} [Field K] [LinearOrder K]

/-- A well-formed list is what one gets by adding its pieces from left to right. -/
theorem addAll_self [IsStrictOrderedRing K] {eps : K} (he : 0 ≤ eps) {l : PF K} (hl : PF.WF eps l) :
    PF.addAll eps [] l = some l := by
  obtain ⟨r, hr, hp, hw⟩ := addAll_wf he l [] ⟨by simp, List.Pairwise.nil⟩ hl.seg
    (hl.sorted.imp (fun h => Or.inl h)) (by simp)
  rw [List.append_nil] at hp
  rw [hr, wf_perm_unique he hw hl hp]

/-- What the pieces `ts` of a split of `s` must satisfy. -/
structure SplitOK (eps : K) (points : List K) (s : Seg K) (ts : List (Seg K)) : Prop where
  wf : ∀ t ∈ ts, t.WF
  lo : ∀ t ∈ ts, s.lo ≤ t.lo
  hi : ∀ t ∈ ts, t.hi ≤ s.hi
  sorted : ts.Pairwise (Seg.LeftOf eps)
  val : ∀ x, PF.val ts x = s.val x
  mass : ∀ x, PF.massAt ts x = s.massAt x
  dirac : ∀ t ∈ ts, t.isDirac = true → t = s
  dirac' : s.isDirac = true → ts = [s]
  cut : ∀ p ∈ points, ∀ t ∈ ts, ¬ (t.lo < .fin p ∧ .fin p < t.hi)
  ends : ∀ t ∈ ts, (t.lo = s.lo ∨ ∃ p ∈ points, t.lo = .fin p) ∧
    (t.hi = s.hi ∨ ∃ p ∈ points, t.hi = .fin p)
  fn : ∀ t ∈ ts, t.fn = s.fn

theorem leftOf_of_nodirac {eps : K} {s t : Seg K} (h : s.hi ≤ t.lo) (hs : s.isDirac = false) :
    s.LeftOf eps t := by
  refine ⟨h, ?_⟩
  rintro a m a' m' rfl -
  simp [Seg.isDirac] at hs

theorem splitFin_ok (eps : K) (pole : Pole) (a₀ b : K) (f : K → K) (points : List K) :
    ∀ (ps : List K) (a : K), a < b → (∀ p ∈ ps, a < p ∧ p < b) → ps.Pairwise (· < ·) →
      (∀ p ∈ points, a < p → p < b → p ∈ ps) → (∀ p ∈ ps, p ∈ points) →
      SplitOK eps points (.fin pole a b f) (PF.splitFin pole a₀ b f a ps) := by
  intro ps
  induction ps with
  | nil =>
    intro a hab _ _ hcut hsub
    simp only [PF.splitFin]
    constructor <;> simp [Seg.WF, Seg.lo, Seg.hi, PF.val, Seg.val, Seg.fn, Seg.isDirac, PF.massAt, Seg.massAt, hab]
    intro p hp h
    by_contra h'
    exact absurd (hcut p hp h (not_le.1 h')) (by simp)
  | cons p ps ih =>
    intro a hab hin hs hcut hsub
    rw [List.pairwise_cons] at hs
    have hp := hin p (by simp)
    have IH := ih p hp.2 (fun q hq => ⟨hs.1 q hq, (hin q (by simp [hq])).2⟩) hs.2 (by
      intro q hq h₁ h₂
      have := hcut q hq (hp.1.trans h₁) h₂
      rcases List.mem_cons.1 this with rfl | h
      · exact absurd h₁ (lt_irrefl _)
      · exact h) (fun q hq => hsub q (by simp [hq]))
    simp only [PF.splitFin]
    have key : ∀ (P : Seg K → Prop) (s : Seg K) (ts : List (Seg K)), P s → (∀ t ∈ ts, P t) →
        ∀ t ∈ s :: ts, P t := by
      intro P s ts h₁ h₂ t ht
      rcases List.mem_cons.1 ht with rfl | ht
      · exact h₁
      · exact h₂ t ht
    constructor
    · exact key _ _ _ (by simpa [Seg.WF] using hp.1) IH.wf
    · refine key _ _ _ (by simp [Seg.lo]) (fun t ht => le_trans ?_ (IH.lo t ht))
      simp [Seg.lo, hp.1.le]
    · refine key _ _ _ (by simp [Seg.hi, hp.2.le]) (fun t ht => (IH.hi t ht))
    · refine List.pairwise_cons.2 ⟨?_, IH.sorted⟩
      intro t ht
      exact leftOf_of_nodirac (IH.lo t ht) rfl
    · intro x
      have := IH.val x
      unfold PF.val at this ⊢
      rw [List.map_cons, List.sum_cons, this]
      simp only [Seg.val, Seg.isDirac, Seg.lo, Seg.hi, Seg.fn, Ext.fin_le_fin, Ext.fin_lt_fin, true_and]
      by_cases h₁ : x < p
      · have : ¬ p ≤ x := not_le.2 h₁
        simp [h₁, this, h₁.trans hp.2]
      · have h₂ : p ≤ x := not_lt.1 h₁
        simp [h₁, h₂, hp.1.le.trans h₂]
    · intro x
      have := IH.mass x
      unfold PF.massAt at this ⊢
      rw [List.map_cons, List.sum_cons, this]
      simp [Seg.massAt]
    · refine key _ _ _ (by simp [Seg.isDirac]) ?_
      intro t ht hd
      have := IH.dirac t ht hd
      rw [this] at hd
      simp [Seg.isDirac] at hd
    · simp [Seg.isDirac]
    · intro q hq
      refine key _ _ _ ?_ (IH.cut q hq)
      simp only [Seg.lo, Seg.hi, Ext.fin_lt_fin]
      rintro ⟨h₁, h₂⟩
      have := hcut q hq h₁ (h₂.trans hp.2)
      rcases List.mem_cons.1 this with rfl | h
      · exact absurd h₂ (lt_irrefl _)
      · exact absurd (h₂.trans (hs.1 q h)) (lt_irrefl _)
    · refine key _ _ _ ⟨.inl rfl, .inr ⟨p, hsub p (by simp), rfl⟩⟩ ?_
      intro t ht
      obtain ⟨h₁, h₂⟩ := IH.ends t ht
      refine ⟨?_, h₂⟩
      rcases h₁ with h | h
      · exact .inr ⟨p, hsub p (by simp), h⟩
      · exact .inr h
    · exact key _ _ _ rfl IH.fn

theorem splitPInf_ok (eps : K) (f : K → K) (points : List K) :
    ∀ (ps : List K) (a : K), (∀ p ∈ ps, a < p) → ps.Pairwise (· < ·) →
      (∀ p ∈ points, a < p → p ∈ ps) → (∀ p ∈ ps, p ∈ points) →
      SplitOK eps points (.pinf a f) (PF.splitPInf f a ps) := by
  intro ps
  induction ps with
  | nil =>
    intro a _ _ hcut hsub
    simp only [PF.splitPInf]
    constructor <;> simp [Seg.WF, Seg.lo, Seg.hi, PF.val, Seg.isDirac, PF.massAt, Seg.massAt]
    intro p hp
    by_contra h'
    exact absurd (hcut p hp (not_le.1 h')) (by simp)
  | cons p ps ih =>
    intro a hin hs hcut hsub
    rw [List.pairwise_cons] at hs
    have hp := hin p (by simp)
    have IH := ih p (fun q hq => hs.1 q hq) hs.2 (by
      intro q hq h₁
      have := hcut q hq (hp.trans h₁)
      rcases List.mem_cons.1 this with rfl | h
      · exact absurd h₁ (lt_irrefl _)
      · exact h) (fun q hq => hsub q (by simp [hq]))
    simp only [PF.splitPInf]
    have key : ∀ (P : Seg K → Prop) (s : Seg K) (ts : List (Seg K)), P s → (∀ t ∈ ts, P t) →
        ∀ t ∈ s :: ts, P t := by
      intro P s ts h₁ h₂ t ht
      rcases List.mem_cons.1 ht with rfl | ht
      · exact h₁
      · exact h₂ t ht
    constructor
    · exact key _ _ _ (by simpa [Seg.WF] using hp) IH.wf
    · refine key _ _ _ (by simp [Seg.lo]) (fun t ht => le_trans ?_ (IH.lo t ht))
      simp [Seg.lo, hp.le]
    · refine key _ _ _ (by simp [Seg.hi]) (fun t ht => (IH.hi t ht))
    · refine List.pairwise_cons.2 ⟨?_, IH.sorted⟩
      intro t ht
      exact leftOf_of_nodirac (IH.lo t ht) rfl
    · intro x
      have := IH.val x
      unfold PF.val at this ⊢
      rw [List.map_cons, List.sum_cons, this]
      simp only [Seg.val, Seg.isDirac, Seg.lo, Seg.hi, Seg.fn, Ext.fin_le_fin, Ext.fin_lt_fin, true_and,
        Ext.fin_lt_pinf, and_true]
      by_cases h₁ : x < p
      · have : ¬ p ≤ x := not_le.2 h₁
        simp [h₁, this]
      · have h₂ : p ≤ x := not_lt.1 h₁
        simp [h₁, h₂, hp.le.trans h₂]
    · intro x
      have := IH.mass x
      unfold PF.massAt at this ⊢
      rw [List.map_cons, List.sum_cons, this]
      simp [Seg.massAt]
    · refine key _ _ _ (by simp [Seg.isDirac]) ?_
      intro t ht hd
      have := IH.dirac t ht hd
      rw [this] at hd
      simp [Seg.isDirac] at hd
    · simp [Seg.isDirac]
    · intro q hq
      refine key _ _ _ ?_ (IH.cut q hq)
      simp only [Seg.lo, Seg.hi, Ext.fin_lt_fin]
      rintro ⟨h₁, h₂⟩
      have := hcut q hq h₁
      rcases List.mem_cons.1 this with rfl | h
      · exact absurd h₂ (lt_irrefl _)
      · exact absurd (h₂.trans (hs.1 q h)) (lt_irrefl _)
    · refine key _ _ _ ⟨.inl rfl, .inr ⟨p, hsub p (by simp), rfl⟩⟩ ?_
      intro t ht
      obtain ⟨h₁, h₂⟩ := IH.ends t ht
      refine ⟨?_, h₂⟩
      rcases h₁ with h | h
      · exact .inr ⟨p, hsub p (by simp), h⟩
      · exact .inr h
    · exact key _ _ _ rfl IH.fn

theorem splitOK_congr {eps : K} {points : List K} {s s' : Seg K} {ts : List (Seg K)}
    (h : SplitOK eps points s ts) (hlo : s'.lo = s.lo) (hhi : s'.hi = s.hi) (hfn : s'.fn = s.fn)
    (hd : s.isDirac = false) (hd' : s'.isDirac = false) : SplitOK eps points s' ts := by
  have nd : ∀ t ∈ ts, t.isDirac = false := by
    intro t ht
    by_contra h'
    have := h.dirac t ht (by simpa using h')
    rw [this] at h'
    exact h' hd
  refine ⟨h.wf, hlo ▸ h.lo, hhi ▸ h.hi, h.sorted, ?_, ?_, ?_, ?_, h.cut, ?_, ?_⟩
  · intro x; rw [h.val]; simp [Seg.val, hlo, hhi, hfn, hd, hd']
  · intro x; rw [h.mass]; cases s <;> cases s' <;> simp_all [Seg.massAt, Seg.isDirac]
  · intro t ht h'; rw [nd t ht] at h'; exact absurd h' (by simp)
  · rw [hd']; simp
  · intro t ht; rw [hlo, hhi]; exact h.ends t ht
  · intro t ht; rw [hfn]; exact h.fn t ht

theorem splitSeg_ok (eps : K) {points : List K} (hp : points.Pairwise (· < ·)) {s : Seg K}
    (hs : s.WF) : SplitOK eps points s (PF.splitSeg points s) := by
  cases s with
  | fin pole a b f =>
    refine splitFin_ok eps pole a b f points _ a hs ?_ (hp.filter _) ?_ ?_
    · intro p h; simpa using (List.mem_filter.1 h).2
    · intro p h h₁ h₂; exact List.mem_filter.2 ⟨h, by simp [h₁, h₂]⟩
    · intro p h; exact (List.mem_filter.1 h).1
  | const a b c =>
    refine splitOK_congr (s := .fin .none a b (fun _ => c)) ?_ rfl rfl rfl rfl rfl
    refine splitFin_ok eps .none a b _ points _ a hs ?_ (hp.filter _) ?_ ?_
    · intro p h; simpa using (List.mem_filter.1 h).2
    · intro p h h₁ h₂; exact List.mem_filter.2 ⟨h, by simp [h₁, h₂]⟩
    · intro p h; exact (List.mem_filter.1 h).1
  | pinf a f =>
    refine splitPInf_ok eps f points _ a ?_ (hp.filter _) ?_ ?_
    · intro p h; simpa using (List.mem_filter.1 h).2
    · intro p h h₁; exact List.mem_filter.2 ⟨h, by simp [h₁]⟩
    · intro p h; exact (List.mem_filter.1 h).1
  | dirac a m =>
    simp only [PF.splitSeg]
    constructor <;> simp [Seg.WF, Seg.lo, Seg.hi, PF.val, Seg.isDirac, PF.massAt]
    intro p _ h; exact h.le
  | minf b f =>
    simp only [PF.splitSeg]
    have hf := hp.filter (fun p => decide (p < b))
    have hm : ∀ p, p ∈ points.filter (fun p => decide (p < b)) ↔ p ∈ points ∧ p < b := by
      intro p; simp [List.mem_filter]
    generalize hq : points.filter (fun p => decide (p < b)) = qs at *
    cases qs with
    | nil =>
      constructor <;> simp [Seg.WF, Seg.lo, Seg.hi, PF.val, Seg.isDirac, PF.massAt, Seg.massAt]
      intro p hp'
      by_contra h
      exact absurd ((hm p).2 ⟨hp', not_le.1 h⟩) (by simp)
    | cons p ps =>
      rw [List.pairwise_cons] at hf
      have hpb := (hm p).1 (by simp)
      have IH := splitFin_ok eps .none p b f points ps p hpb.2
        (fun q hq => ⟨hf.1 q hq, ((hm q).1 (by simp [hq])).2⟩) hf.2 (by
          intro q hq h₁ h₂
          rcases List.mem_cons.1 ((hm q).2 ⟨hq, h₂⟩) with rfl | h
          · exact absurd h₁ (lt_irrefl _)
          · exact h) (fun q hq => ((hm q).1 (by simp [hq])).1)
      have key : ∀ (P : Seg K → Prop) (s : Seg K) (ts : List (Seg K)), P s → (∀ t ∈ ts, P t) →
          ∀ t ∈ s :: ts, P t := by
        intro P s ts h₁ h₂ t ht
        rcases List.mem_cons.1 ht with rfl | ht
        · exact h₁
        · exact h₂ t ht
      dsimp only
      constructor
      · exact key _ _ _ trivial IH.wf
      · refine key _ _ _ (by simp [Seg.lo]) (fun t ht => le_trans ?_ (IH.lo t ht))
        simp [Seg.lo]
      · refine key _ _ _ (by simp [Seg.hi, hpb.2.le]) (fun t ht => (IH.hi t ht))
      · refine List.pairwise_cons.2 ⟨?_, IH.sorted⟩
        intro t ht
        exact leftOf_of_nodirac (IH.lo t ht) rfl
      · intro x
        have := IH.val x
        unfold PF.val at this ⊢
        rw [List.map_cons, List.sum_cons, this]
        simp only [Seg.val, Seg.isDirac, Seg.lo, Seg.hi, Seg.fn, Ext.fin_le_fin, Ext.fin_lt_fin, true_and,
          Ext.ninf_le]
        by_cases h₁ : x < p
        · have : ¬ p ≤ x := not_le.2 h₁
          simp [h₁, this, h₁.trans hpb.2]
        · have h₂ : p ≤ x := not_lt.1 h₁
          simp [h₁, h₂]
      · intro x
        have := IH.mass x
        unfold PF.massAt at this ⊢
        rw [List.map_cons, List.sum_cons, this]
        simp [Seg.massAt]
      · refine key _ _ _ (by simp [Seg.isDirac]) ?_
        intro t ht hd
        have := IH.dirac t ht hd
        rw [this] at hd
        simp [Seg.isDirac] at hd
      · simp [Seg.isDirac]
      · intro q hq
        refine key _ _ _ ?_ (IH.cut q hq)
        simp only [Seg.lo, Seg.hi, Ext.fin_lt_fin]
        rintro ⟨h₁, h₂⟩
        rcases List.mem_cons.1 ((hm q).2 ⟨hq, h₂.trans hpb.2⟩) with rfl | h
        · exact absurd h₂ (lt_irrefl _)
        · exact absurd (h₂.trans (hf.1 q h)) (lt_irrefl _)
      · refine key _ _ _ ⟨.inl rfl, .inr ⟨p, hpb.1, rfl⟩⟩ ?_
        intro t ht
        obtain ⟨h₁, h₂⟩ := IH.ends t ht
        refine ⟨?_, h₂⟩
        rcases h₁ with h | h
        · exact .inr ⟨p, hpb.1, h⟩
        · exact .inr h
      · exact key _ _ _ rfl IH.fn

theorem leftOf_pieces {eps : K} {points : List K} {s t : Seg K} {ss ts : List (Seg K)}
    (hs : SplitOK eps points s ss) (ht : SplitOK eps points t ts) (h : s.LeftOf eps t) :
    ∀ s' ∈ ss, ∀ t' ∈ ts, s'.LeftOf eps t' := by
  intro s' hs' t' ht'
  refine ⟨(hs.hi s' hs').trans (h.1.trans (ht.lo t' ht')), ?_⟩
  intro a m a' m' h₁ h₂
  have e₁ := hs.dirac s' hs' (by rw [h₁]; rfl)
  have e₂ := ht.dirac t' ht' (by rw [h₂]; rfl)
  exact h.2 a m a' m' (e₁ ▸ h₁) (e₂ ▸ h₂)

theorem split_wf {eps : K} {points : List K} (hp : points.Pairwise (· < ·)) {l : PF K}
    (hl : PF.WF eps l) : PF.WF eps (l.flatMap (PF.splitSeg points)) := by
  induction l with
  | nil => exact ⟨by simp, by simp⟩
  | cons s l ih =>
    have hl' : PF.WF eps l := ⟨fun t ht => hl.seg t (by simp [ht]), (List.pairwise_cons.1 hl.sorted).2⟩
    have IH := ih hl'
    have hs := splitSeg_ok eps hp (hl.seg s (by simp))
    rw [List.flatMap_cons]
    refine ⟨?_, ?_⟩
    · intro t ht
      rcases List.mem_append.1 ht with ht | ht
      · exact hs.wf t ht
      · exact IH.seg t ht
    · refine List.pairwise_append.2 ⟨hs.sorted, IH.sorted, ?_⟩
      intro s' hs' t' ht'
      obtain ⟨t, ht, htt⟩ := List.mem_flatMap.1 ht'
      exact leftOf_pieces hs (splitSeg_ok eps hp (hl'.seg t ht))
        ((List.pairwise_cons.1 hl.sorted).1 t ht) s' hs' t' htt

theorem splitByPoints_eq [IsStrictOrderedRing K] {eps : K} (he : 0 ≤ eps) {points : List K}
    (hp : points.Pairwise (· < ·)) {l : PF K} (hl : PF.WF eps l) :
    PF.splitByPoints eps l points = some (l.flatMap (PF.splitSeg points)) :=
  addAll_self he (split_wf hp hl)

theorem split_val {eps : K} {points : List K} (hp : points.Pairwise (· < ·)) {l : PF K}
    (hl : PF.WF eps l) (x : K) :
    PF.val (l.flatMap (PF.splitSeg points)) x = l.val x ∧
      PF.massAt (l.flatMap (PF.splitSeg points)) x = l.massAt x := by
  induction l with
  | nil => exact ⟨rfl, rfl⟩
  | cons s l ih =>
    have hl' : PF.WF eps l := ⟨fun t ht => hl.seg t (by simp [ht]), (List.pairwise_cons.1 hl.sorted).2⟩
    have IH := ih hl'
    have hs := splitSeg_ok eps hp (hl.seg s (by simp))
    have h₁ := hs.val x
    have h₂ := hs.mass x
    unfold PF.val PF.massAt at *
    rw [List.flatMap_cons, List.map_append, List.map_append, List.sum_append, List.sum_append, IH.1, IH.2,
      h₁, h₂]
    simp

theorem split_diracs {eps : K} {points : List K} (hp : points.Pairwise (· < ·)) {l : PF K}
    (hl : PF.WF eps l) : PF.diracs (l.flatMap (PF.splitSeg points)) = PF.diracs l := by
  induction l with
  | nil => rfl
  | cons s l ih =>
    have hl' : PF.WF eps l := ⟨fun t ht => hl.seg t (by simp [ht]), (List.pairwise_cons.1 hl.sorted).2⟩
    have IH := ih hl'
    have hs := splitSeg_ok eps hp (hl.seg s (by simp))
    unfold PF.diracs at *
    rw [List.flatMap_cons, List.filter_append, IH, List.filter_cons]
    by_cases hd : s.isDirac = true
    · rw [hs.dirac' hd]; simp [hd]
    · have : List.filter Seg.isDirac (PF.splitSeg points s) = [] := by
        rw [List.filter_eq_nil_iff]
        intro t ht h
        have := hs.dirac t ht h
        rw [this] at h
        exact hd h
      simp [this, hd]

end Pacal
