import Verif.Segments.Split
import Mathlib.Data.List.Pairwise

/-! Helper lemmas about `restrictToInterval`, `_operation__`, `_roperation__` and `op_diracs`. -/

set_option linter.unusedSectionVars false

namespace Pacal
variable {K : Type*} [Field K] [LinearOrder K]

theorem mem_finites {p : K} {l : List (Ext K)} : p ∈ PF.finites l ↔ Ext.fin p ∈ l := by
  unfold PF.finites
  rw [List.mem_filterMap]
  constructor
  · rintro ⟨e, he, h⟩
    split at h
    · simp only [Option.some.injEq] at h; subst h; exact he
    · simp at h
  · intro h
    exact ⟨_, h, rfl⟩

theorem ext_cases (e : Ext K) : e = .ninf ∨ e = .pinf ∨ ∃ p, e = .fin p := by
  rcases e with _ | _ | p
  · exact .inl rfl
  · exact .inr (.inl rfl)
  · exact .inr (.inr ⟨p, rfl⟩)

theorem finites_sorted {l : List (Ext K)} (h : l.Pairwise (· < ·)) :
    (PF.finites l).Pairwise (· < ·) := by
  unfold PF.finites
  rw [List.pairwise_filterMap]
  refine h.imp ?_
  intro e e' hlt p hp p' hp'
  rcases ext_cases e with rfl | rfl | ⟨q, rfl⟩
  · exact absurd hp (by rintro ⟨⟩)
  · exact absurd hp (by rintro ⟨⟩)
  · rcases ext_cases e' with rfl | rfl | ⟨q', rfl⟩
    · exact absurd hp' (by rintro ⟨⟩)
    · exact absurd hp' (by rintro ⟨⟩)
    · change some q = some p at hp
      change some q' = some p' at hp'
      simp only [Option.some.injEq] at hp hp'
      subst hp; subst hp'
      simpa using hlt

theorem split_cut {eps : K} {es : List (Ext K)} (hs : (PF.finites es).Pairwise (· < ·)) {l : PF K}
    (hl : PF.WF eps l) {t : Seg K} (ht : t ∈ l.flatMap (PF.splitSeg (PF.finites es))) {e : Ext K}
    (he : e ∈ es) : ¬ (t.lo < e ∧ e < t.hi) := by
  obtain ⟨s, hsl, hts⟩ := List.mem_flatMap.1 ht
  rcases ext_cases e with rfl | rfl | ⟨p, rfl⟩
  · rintro ⟨h, -⟩; exact absurd h (by simp)
  · rintro ⟨-, h⟩; exact absurd h (by simp)
  · exact (splitSeg_ok eps hs (hl.seg s hsl)).cut p (mem_finites.2 he) t hts

theorem sum_filter_map {α : Type*} (P : α → Bool) (f : α → K) (l : List α) :
    ((l.filter P).map f).sum = (l.map (fun t => if P t then f t else 0)).sum := by
  induction l with
  | nil => rfl
  | cons a l ih =>
    rw [List.filter_cons, List.map_cons, List.sum_cons]
    split <;> simp_all

theorem wf_filter {eps : K} {l : PF K} (h : PF.WF eps l) (P : Seg K → Bool) :
    PF.WF eps (l.filter P) :=
  ⟨fun s hs => h.seg s (List.mem_filter.1 hs).1, h.sorted.filter _⟩

theorem restrict_spec [IsStrictOrderedRing K] {eps : K} (he : 0 ≤ eps) {l : PF K} (hl : PF.WF eps l)
    {a b : Ext K} (hab : a < b) :
    ∃ r, PF.restrictToInterval eps l a b = some r ∧ PF.WF eps r ∧
      (∀ x, r.val x = if a ≤ .fin x ∧ .fin x < b then l.val x else 0) ∧
      (∀ x, r.massAt x = if a ≤ .fin x ∧ .fin x < b then l.massAt x else 0) ∧
      (∀ s ∈ r, a ≤ s.lo ∧ s.hi ≤ b) := by
  have hs : (PF.finites [a, b]).Pairwise (· < ·) := finites_sorted (by simp [hab])
  have hw := split_wf hs hl
  refine ⟨(l.flatMap (PF.splitSeg (PF.finites [a, b]))).filter (fun s =>
      if s.isDirac then decide (a ≤ s.lo) && decide (s.hi < b)
      else decide (a ≤ s.lo) && decide (s.hi ≤ b)), ?_, wf_filter hw _, ?_, ?_, ?_⟩
  · unfold PF.restrictToInterval
    rw [splitByPoints_eq he hs hl]
    exact addAll_self he (wf_filter hw _)
  · intro x
    rw [← (split_val hs hl x).1]
    unfold PF.val
    rw [sum_filter_map]
    have : ∀ (c : Prop) [Decidable c] (L : PF K), (if c then (L.map (Seg.val x)).sum else 0) =
        (L.map (fun t => if c then t.val x else 0)).sum := by
      intro c _ L; split <;> simp
    rw [this]
    congr 1
    apply List.map_congr_left
    intro t ht
    by_cases hd : t.isDirac = true
    · simp [Seg.val, hd]
    · have hd : t.isDirac = false := by simpa using hd
      have hlt := Seg.lo_lt_hi (hw.seg t ht) hd
      have ca := split_cut hs hl ht (e := a) (by simp)
      have cb := split_cut hs hl ht (e := b) (by simp)
      by_cases hx : t.lo ≤ .fin x ∧ .fin x < t.hi
      · simp only [hd, Bool.false_eq_true, if_false, Bool.and_eq_true, decide_eq_true_eq]
        congr 1
        apply propext
        constructor
        · rintro ⟨h₁, h₂⟩; exact ⟨h₁.trans hx.1, hx.2.trans_le h₂⟩
        · rintro ⟨h₁, h₂⟩
          constructor
          · by_contra h
            exact ca ⟨not_le.1 h, h₁.trans_lt hx.2⟩
          · by_contra h
            exact cb ⟨hx.1.trans_lt h₂, not_le.1 h⟩
      · have : t.val x = 0 := by
          unfold Seg.val; rw [if_neg]; rintro ⟨-, h⟩; exact hx h
        simp [this]
  · intro x
    rw [← (split_val hs hl x).2]
    unfold PF.massAt
    rw [sum_filter_map]
    have : ∀ (c : Prop) [Decidable c] (L : PF K), (if c then (L.map (Seg.massAt x)).sum else 0) =
        (L.map (fun t => if c then t.massAt x else 0)).sum := by
      intro c _ L; split <;> simp
    rw [this]
    congr 1
    apply List.map_congr_left
    intro t ht
    cases t with
    | dirac y m =>
      by_cases hx : y = x
      · subst hx
        simp only [Seg.isDirac, Seg.lo, Seg.hi, if_true, Bool.and_eq_true]
        congr 1
        exact propext (and_congr decide_eq_true_iff decide_eq_true_iff)
      · simp [Seg.massAt, hx]
    | _ => simp [Seg.massAt]
  · intro s hsr
    have := (List.mem_filter.1 hsr).2
    split at this
    · simp only [Bool.and_eq_true, decide_eq_true_eq] at this
      exact ⟨this.1, this.2.le⟩
    · simpa using this

/-! ### `_operation__` -/

theorem mem_getBreaks {l : PF K} {e : Ext K} : e ∈ PF.getBreaks l ↔ ∃ s ∈ l, e = s.lo ∨ e = s.hi := by
  unfold PF.getBreaks
  split
  · rename_i h
    have : l = [] := List.length_eq_zero_iff.1 h
    subst this; simp
  · rw [mem_npUnique]
    simp only [List.mem_append, List.mem_map]
    constructor
    · rintro (⟨s, hs, rfl⟩ | ⟨s, hs, rfl⟩)
      · exact ⟨s, hs, .inl rfl⟩
      · exact ⟨s, hs, .inr rfl⟩
    · rintro ⟨s, hs, rfl | rfl⟩
      · exact .inl ⟨s, hs, rfl⟩
      · exact .inr ⟨s, hs, rfl⟩

theorem findByEnds_self {eps : K} {l : PF K} (hl : PF.WF eps l) {s : Seg K} (hs : s ∈ l)
    (hd : s.isDirac = false) : PF.findSegmentByEnds l s.lo s.hi = some s := by
  obtain ⟨l₁, l₂, rfl⟩ := List.append_of_mem hs
  unfold PF.findSegmentByEnds
  rw [List.find?_eq_some_iff_append]
  refine ⟨by simp, l₁, l₂, rfl, ?_⟩
  intro t ht
  have h₁ := ((wf_append hl).2.2 t ht s (by simp)).1
  have h₂ := Seg.lo_lt_hi (hl.seg s hs) hd
  simp only [Bool.not_eq_true', decide_eq_false_iff_not]
  rintro ⟨h₃, h₄⟩
  rw [h₄] at h₁
  exact absurd (h₂.trans_le h₁) (lt_irrefl _)

theorem findByEnds_some {l : PF K} {a b : Ext K} {s : Seg K}
    (h : PF.findSegmentByEnds l a b = some s) : s ∈ l ∧ s.lo = a ∧ s.hi = b := by
  unfold PF.findSegmentByEnds at h
  exact ⟨List.mem_of_find?_eq_some h, by simpa using List.find?_some h⟩

/-- `B` cuts `l`: all ends of pieces are in `B` and no element of `B` is inside a piece. -/
structure CutBy (l : PF K) (B : List (Ext K)) : Prop where
  lo : ∀ s ∈ l, s.lo ∈ B
  hi : ∀ s ∈ l, s.hi ∈ B
  cut : ∀ s ∈ l, ∀ e ∈ B, ¬ (s.lo < e ∧ e < s.hi)

/-- `a`, `b` are neighbours in the sorted list `B` -/
def Neighbours (B : List (Ext K)) (a b : Ext K) : Prop := ∃ B₁ B₂, B = B₁ ++ a :: b :: B₂

theorem neighbours_of {B : List (Ext K)} (hB : B.Pairwise (· < ·)) {a b : Ext K} (ha : a ∈ B)
    (hb : b ∈ B) (hab : a < b) (hno : ∀ e ∈ B, ¬ (a < e ∧ e < b)) : Neighbours B a b := by
  obtain ⟨B₁, B₂, rfl⟩ := List.append_of_mem ha
  rw [List.pairwise_append] at hB
  have hb' : b ∈ B₂ := by
    rcases List.mem_append.1 hb with h | h
    · exact absurd (hB.2.2 b h a (by simp)) (not_lt.2 hab.le)
    · rcases List.mem_cons.1 h with rfl | h
      · exact absurd hab (lt_irrefl _)
      · exact h
  cases B₂ with
  | nil => simp at hb'
  | cons c B₂ =>
    have hc := (List.pairwise_cons.1 hB.2.1).1 c (by simp)
    rcases List.mem_cons.1 hb' with rfl | h
    · exact ⟨B₁, B₂, rfl⟩
    · have h₂ := (List.pairwise_cons.1 (List.pairwise_cons.1 hB.2.1).2).1 b h
      exact absurd ⟨hc, h₂⟩ (hno c (by simp))

theorem neighbours_lt {B : List (Ext K)} (hB : B.Pairwise (· < ·)) {a b : Ext K}
    (h : Neighbours B a b) : a < b ∧ a ∈ B ∧ b ∈ B ∧ ∀ e ∈ B, ¬ (a < e ∧ e < b) := by
  obtain ⟨B₁, B₂, rfl⟩ := h
  rw [List.pairwise_append, List.pairwise_cons, List.pairwise_cons] at hB
  obtain ⟨h₁, ⟨h₂, h₃, h₄⟩, h₅⟩ := hB
  refine ⟨h₂ b (by simp), by simp, by simp, ?_⟩
  rintro e he ⟨k₁, k₂⟩
  rcases List.mem_append.1 he with h | h
  · exact absurd (h₅ e h a (by simp)) (not_lt.2 k₁.le)
  · rcases List.mem_cons.1 h with rfl | h
    · exact absurd k₁ (lt_irrefl _)
    · rcases List.mem_cons.1 h with rfl | h
      · exact absurd k₂ (lt_irrefl _)
      · exact absurd (h₃ e h) (not_lt.2 k₂.le)

/-- two neighbouring pairs containing the same point coincide -/
theorem neighbours_unique {B : List (Ext K)} (hB : B.Pairwise (· < ·)) {a b a' b' x : Ext K}
    (h : Neighbours B a b) (h' : Neighbours B a' b') (hx : a ≤ x ∧ x < b) (hx' : a' ≤ x ∧ x < b') :
    a = a' ∧ b = b' := by
  obtain ⟨_, ha, hb, hn⟩ := neighbours_lt hB h
  obtain ⟨_, ha', hb', hn'⟩ := neighbours_lt hB h'
  constructor
  · apply le_antisymm
    · by_contra hlt
      exact hn' a ha ⟨not_le.1 hlt, hx.1.trans_lt hx'.2⟩
    · by_contra hlt
      exact hn a' ha' ⟨not_le.1 hlt, hx'.1.trans_lt hx.2⟩
  · apply le_antisymm
    · by_contra hlt
      exact hn b' hb' ⟨hx.1.trans_lt hx'.2, not_le.1 hlt⟩
    · by_contra hlt
      exact hn' b hb ⟨hx'.1.trans_lt hx.2, not_le.1 hlt⟩

/-- value read off by the lookup -/
def lookupVal (l : PF K) (a b : Ext K) (x : K) : K :=
  match PF.findSegmentByEnds l a b with
  | some s => s.fn x
  | none => 0

theorem covered_neighbours {eps : K} {l : PF K} {B : List (Ext K)} (hB : B.Pairwise (· < ·))
    (hl : PF.WF eps l) (hc : CutBy l B) {s : Seg K} (hs : s ∈ l) (hd : s.isDirac = false) :
    Neighbours B s.lo s.hi :=
  neighbours_of hB (hc.lo s hs) (hc.hi s hs) (Seg.lo_lt_hi (hl.seg s hs) hd) (hc.cut s hs)

theorem val_eq_zero {l : PF K} {x : K}
    (h : ∀ s ∈ l, s.isDirac = false → ¬ (s.lo ≤ .fin x ∧ .fin x < s.hi)) : l.val x = 0 := by
  unfold PF.val
  rw [List.sum_eq_zero]
  intro y hy
  obtain ⟨s, hs, rfl⟩ := List.mem_map.1 hy
  unfold Seg.val
  rw [if_neg]
  rintro ⟨hd, h'⟩
  exact h s hs hd h'

theorem val_lookup {eps : K} {l : PF K} {B : List (Ext K)} (hB : B.Pairwise (· < ·))
    (hl : PF.WF eps l) (hc : CutBy l B) {a b : Ext K} (hn : Neighbours B a b) {x : K}
    (hx : a ≤ .fin x ∧ .fin x < b) : l.val x = lookupVal l a b x := by
  have hab := (neighbours_lt hB hn).1
  unfold lookupVal
  cases hf : PF.findSegmentByEnds l a b with
  | some s =>
    obtain ⟨hs, rfl, rfl⟩ := findByEnds_some hf
    have hd : s.isDirac = false := by
      cases s <;> simp_all [Seg.isDirac, Seg.lo, Seg.hi]
    obtain ⟨l₁, l₂, rfl⟩ := List.append_of_mem hs
    exact val_split hl hd hx.1 hx.2
  | none =>
    apply val_eq_zero
    intro s hs hd h
    obtain ⟨rfl, rfl⟩ := neighbours_unique hB hn (covered_neighbours hB hl hc hs hd) hx h
    rw [findByEnds_self hl hs hd] at hf
    simp at hf

theorem commonList_append (f g : PF K) (B₁ B₂ : List (Ext K)) (a b : Ext K) :
    PF.commonList f g (B₁ ++ a :: b :: B₂) = PF.commonList f g (B₁ ++ [a]) ++
      (PF.findSegmentByEnds f a b, PF.findSegmentByEnds g a b) :: PF.commonList f g (b :: B₂) := by
  induction B₁ with
  | nil => simp [PF.commonList]
  | cons c B₁ ih =>
    cases B₁ with
    | nil => simp [PF.commonList]
    | cons d B₁ => simp only [List.cons_append, PF.commonList] at *; rw [ih]

theorem mem_commonList {f g : PF K} : ∀ {B : List (Ext K)} {q},
    q ∈ PF.commonList f g B → ∃ a b, Neighbours B a b ∧
      q = (PF.findSegmentByEnds f a b, PF.findSegmentByEnds g a b) := by
  intro B
  induction B with
  | nil => intro q h; simp [PF.commonList] at h
  | cons a B ih =>
    intro q h
    cases B with
    | nil => simp [PF.commonList] at h
    | cons b B =>
      simp only [PF.commonList, List.mem_cons] at h
      rcases h with rfl | h
      · exact ⟨a, b, ⟨[], B, rfl⟩, rfl⟩
      · obtain ⟨c, d, ⟨B₁, B₂, h₁⟩, h₂⟩ := ih h
        exact ⟨c, d, ⟨a :: B₁, B₂, by simp [h₁]⟩, h₂⟩

theorem withFn_some {s : Seg K} (hd : s.isDirac = false) (hw : s.WF) (h : K → K) :
    ∃ t, PF.withFn s h = some t ∧ t.lo = s.lo ∧ t.hi = s.hi ∧ t.fn = h ∧ t.isDirac = false ∧ t.WF := by
  cases s <;> simp_all [Seg.isDirac, PF.withFn, Seg.lo, Seg.hi, Seg.fn, Seg.WF]

/-- what the loop body makes of one pair of neighbours -/
structure PieceOK (op : K → K → K) (f g : PF K) (a b : Ext K) (ts : List (Seg K)) : Prop where
  le_one : ts = [] ∨ ∃ t, ts = [t]
  ends : ∀ t ∈ ts, t.lo = a ∧ t.hi = b ∧ t.isDirac = false ∧ t.WF
  fn : ∀ t ∈ ts, ∀ x, t.fn x = op (lookupVal f a b x) (lookupVal g a b x)
  empty : ts = [] ↔ PF.findSegmentByEnds f a b = none ∧ PF.findSegmentByEnds g a b = none

theorem opPair_ok {eps : K} {op : K → K → K} {f g : PF K} (hf : PF.WF eps f) (hg : PF.WF eps g)
    {a b : Ext K} (hab : a < b) :
    ∃ ts, PF.opPair op (PF.findSegmentByEnds f a b, PF.findSegmentByEnds g a b) = some ts ∧
      PieceOK op f g a b ts := by
  have nd : ∀ s : Seg K, s.lo = a → s.hi = b → s.isDirac = false := by
    intro s h₁ h₂
    cases s <;> simp_all [Seg.isDirac, Seg.lo, Seg.hi]
  cases h₁ : PF.findSegmentByEnds f a b with
  | none =>
    cases h₂ : PF.findSegmentByEnds g a b with
    | none =>
      exact ⟨[], rfl, ⟨.inl rfl, by simp, by simp, by simp [h₁, h₂]⟩⟩
    | some t =>
      obtain ⟨ht, hlo, hhi⟩ := findByEnds_some h₂
      obtain ⟨t', e, k₁, k₂, k₃, k₄, k₅⟩ := withFn_some (nd t hlo hhi) (hg.seg t ht)
        (fun x => op 0 (t.fn x))
      refine ⟨[t'], by simp [PF.opPair, e], ⟨.inr ⟨t', rfl⟩, ?_, ?_, by simp [h₂]⟩⟩
      · intro u hu; simp at hu; subst hu
        exact ⟨k₁.trans hlo, k₂.trans hhi, k₄, k₅⟩
      · intro u hu x; simp at hu; subst hu
        rw [k₃]; simp [lookupVal, h₁, h₂]
  | some s =>
    obtain ⟨hs, hlo, hhi⟩ := findByEnds_some h₁
    cases h₂ : PF.findSegmentByEnds g a b with
    | none =>
      obtain ⟨t', e, k₁, k₂, k₃, k₄, k₅⟩ := withFn_some (nd s hlo hhi) (hf.seg s hs)
        (fun x => op (s.fn x) 0)
      refine ⟨[t'], by simp [PF.opPair, e], ⟨.inr ⟨t', rfl⟩, ?_, ?_, by simp [h₁]⟩⟩
      · intro u hu; simp at hu; subst hu
        exact ⟨k₁.trans hlo, k₂.trans hhi, k₄, k₅⟩
      · intro u hu x; simp at hu; subst hu
        rw [k₃]; simp [lookupVal, h₁, h₂]
    | some t =>
      obtain ⟨t', e, k₁, k₂, k₃, k₄, k₅⟩ := withFn_some (nd s hlo hhi) (hf.seg s hs)
        (fun x => op (s.fn x) (t.fn x))
      refine ⟨[t'], by simp [PF.opPair, e], ⟨.inr ⟨t', rfl⟩, ?_, ?_, by simp [h₁]⟩⟩
      · intro u hu; simp at hu; subst hu
        exact ⟨k₁.trans hlo, k₂.trans hhi, k₄, k₅⟩
      · intro u hu x; simp at hu; subst hu
        rw [k₃]; simp [lookupVal, h₁, h₂]

/-- the continuous pieces built by `_operation__` -/
theorem opPieces_ok {eps : K} {op : K → K → K} {f g : PF K} (hf : PF.WF eps f) (hg : PF.WF eps g) :
    ∀ {B : List (Ext K)}, B.Pairwise (· < ·) →
    ∃ ps : List (List (Seg K)), (PF.commonList f g B).mapM (PF.opPair op) = some ps ∧
      PF.WF eps ps.flatten ∧
      (∀ t ∈ ps.flatten, t.isDirac = false ∧ Neighbours B t.lo t.hi ∧
        (∀ x, t.fn x = op (lookupVal f t.lo t.hi x) (lookupVal g t.lo t.hi x)) ∧
        ¬ (PF.findSegmentByEnds f t.lo t.hi = none ∧ PF.findSegmentByEnds g t.lo t.hi = none)) ∧
      (∀ a b, Neighbours B a b → (∃ t ∈ ps.flatten, t.lo = a ∧ t.hi = b) ∨
        (PF.findSegmentByEnds f a b = none ∧ PF.findSegmentByEnds g a b = none)) := by
  intro B
  induction B with
  | nil =>
    intro _
    refine ⟨[], by simp [PF.commonList], ⟨by simp, by simp⟩, by simp, ?_⟩
    rintro a b ⟨B₁, B₂, h⟩
    simp at h
  | cons a B ih =>
    intro hB
    cases B with
    | nil =>
      refine ⟨[], by simp [PF.commonList], ⟨by simp, by simp⟩, by simp, ?_⟩
      rintro c d ⟨B₁, B₂, h⟩
      have := congrArg List.length h
      simp at this
      omega
    | cons b B =>
      rw [List.pairwise_cons] at hB
      have hab := hB.1 b (by simp)
      obtain ⟨ps, e, hw, h₁, h₂⟩ := ih hB.2
      obtain ⟨ts, e', ok⟩ := opPair_ok (op := op) hf hg hab
      have hlo : ∀ t ∈ ps.flatten, b ≤ t.lo := by
        intro t ht
        obtain ⟨_, hm, _, _⟩ := neighbours_lt hB.2 (h₁ t ht).2.1
        rcases List.mem_cons.1 hm with h | h
        · exact h.ge
        · exact ((List.pairwise_cons.1 hB.2).1 _ h).le
      refine ⟨ts :: ps, ?_, ⟨?_, ?_⟩, ?_, ?_⟩
      · simp only [PF.commonList, List.mapM_cons, e, e']; rfl
      · intro t ht
        rw [List.flatten_cons] at ht
        rcases List.mem_append.1 ht with ht | ht
        · exact (ok.ends t ht).2.2.2
        · exact hw.seg t ht
      · rw [List.flatten_cons, List.pairwise_append]
        refine ⟨?_, hw.sorted, ?_⟩
        · rcases ok.le_one with h | ⟨t, h⟩ <;> simp [h]
        · intro s hs t ht
          have := ok.ends s hs
          exact leftOf_of_nodirac (this.2.1.le.trans (hlo t ht)) this.2.2.1
      · intro t ht
        rw [List.flatten_cons] at ht
        rcases List.mem_append.1 ht with ht | ht
        · have := ok.ends t ht
          refine ⟨this.2.2.1, ⟨[], B, by simp [this.1, this.2.1]⟩, ?_⟩
          rw [this.1, this.2.1]
          exact ⟨ok.fn t ht, fun h => by rw [ok.empty.2 h] at ht; simp at ht⟩
        · obtain ⟨k₁, ⟨B₁, B₂, k₂⟩, k₃⟩ := h₁ t ht
          exact ⟨k₁, ⟨a :: B₁, B₂, by simp [k₂]⟩, k₃⟩
      · rintro c d ⟨B₁, B₂, h⟩
        rw [List.flatten_cons]
        cases B₁ with
        | nil =>
          simp only [List.nil_append, List.cons.injEq] at h
          obtain ⟨rfl, rfl, rfl⟩ := h
          rcases ok.le_one with h | ⟨t, h⟩
          · exact .inr (ok.empty.1 h)
          · have := ok.ends t (by simp [h])
            exact .inl ⟨t, by simp [h], this.1, this.2.1⟩
        | cons c' B₁ =>
          simp only [List.cons_append, List.cons.injEq] at h
          rcases h₂ c d ⟨B₁, B₂, h.2⟩ with ⟨t, ht, h'⟩ | h'
          · exact .inl ⟨t, by simp only [List.mem_append]; exact .inr ht, h'⟩
          · exact .inr h'

/-- values of the pieces built by `_operation__` -/
theorem opPieces_val {eps : K} {op : K → K → K} (h0 : op 0 0 = 0) {f g : PF K} {B : List (Ext K)}
    (hB : B.Pairwise (· < ·)) (hf : PF.WF eps f) (hg : PF.WF eps g) (cf : CutBy f B) (cg : CutBy g B)
    {L : PF K} (hL : PF.WF eps L)
    (h₁ : ∀ t ∈ L, t.isDirac = false ∧ Neighbours B t.lo t.hi ∧
        (∀ x, t.fn x = op (lookupVal f t.lo t.hi x) (lookupVal g t.lo t.hi x)) ∧
        ¬ (PF.findSegmentByEnds f t.lo t.hi = none ∧ PF.findSegmentByEnds g t.lo t.hi = none))
    (h₂ : ∀ a b, Neighbours B a b → (∃ t ∈ L, t.lo = a ∧ t.hi = b) ∨
        (PF.findSegmentByEnds f a b = none ∧ PF.findSegmentByEnds g a b = none)) (x : K) :
    L.val x = op (f.val x) (g.val x) := by
  by_cases hx : ∃ a b, Neighbours B a b ∧ a ≤ .fin x ∧ .fin x < b
  · obtain ⟨a, b, hn, hx⟩ := hx
    rw [val_lookup hB hf cf hn hx, val_lookup hB hg cg hn hx]
    rcases h₂ a b hn with ⟨t, ht, rfl, rfl⟩ | ⟨e₁, e₂⟩
    · obtain ⟨l₁, l₂, rfl⟩ := List.append_of_mem ht
      rw [val_split hL (h₁ t ht).1 hx.1 hx.2, (h₁ t ht).2.2.1]
    · simp only [lookupVal, e₁, e₂, h0]
      apply val_eq_zero
      intro t ht hd h
      obtain ⟨rfl, rfl⟩ := neighbours_unique hB hn (h₁ t ht).2.1 hx h
      exact (h₁ t ht).2.2.2 ⟨e₁, e₂⟩
  · push Not at hx
    rw [val_eq_zero (l := L), val_eq_zero (l := f), val_eq_zero (l := g), h0]
    · intro s hs hd ⟨k₁, k₂⟩
      exact absurd k₂ (not_lt.2 (hx _ _ (covered_neighbours hB hg cg hs hd) k₁))
    · intro s hs hd ⟨k₁, k₂⟩
      exact absurd k₂ (not_lt.2 (hx _ _ (covered_neighbours hB hf cf hs hd) k₁))
    · intro s hs hd ⟨k₁, k₂⟩
      exact absurd k₂ (not_lt.2 (hx _ _ (h₁ s hs).2.1 k₁))

/-! ### atoms -/

theorem getDirac_mem {x m : K} {l : PF K} (h : PF.getDirac x l = some m) : Seg.dirac x m ∈ l := by
  induction l with
  | nil => simp [PF.getDirac] at h
  | cons s l ih =>
    cases s with
    | dirac a n =>
      simp only [PF.getDirac] at h
      split at h
      · rename_i hax
        simp only [Option.some.injEq] at h
        simp [hax, h]
      · exact List.mem_cons_of_mem _ (ih h)
    | _ => exact List.mem_cons_of_mem _ (ih h)

theorem getDirac_isSome {x m : K} {l : PF K} (h : Seg.dirac x m ∈ l) :
    ∃ m', PF.getDirac x l = some m' := by
  induction l with
  | nil => simp at h
  | cons s l ih =>
    rcases List.mem_cons.1 h with rfl | h
    · exact ⟨m, by simp [PF.getDirac]⟩
    · obtain ⟨m', hm⟩ := ih h
      cases s with
      | dirac a n =>
        simp only [PF.getDirac]
        split
        · exact ⟨_, rfl⟩
        · exact ⟨m', hm⟩
      | _ => exact ⟨m', hm⟩

theorem wf_atom_unique [IsStrictOrderedRing K] {eps : K} (he : 0 ≤ eps) {l : PF K} (hl : PF.WF eps l)
    {x m m' : K} (h : Seg.dirac x m ∈ l) (h' : Seg.dirac x m' ∈ l) : m = m' := by
  by_contra hne
  have key : l.Pairwise (fun s t => ∀ a n a' n', s = Seg.dirac a n →
      t = Seg.dirac a' n' → n = n' ∨ eps < |a - a'|) :=
    hl.sorted.imp (fun h a n a' n' e e' => .inr (h.2 a n a' n' e e'))
  have sym : Std.Symm (fun s t : Seg K => ∀ a n a' n', s = Seg.dirac a n →
      t = Seg.dirac a' n' → n = n' ∨ eps < |a - a'|) := ⟨by
    intro s t hst a n a' n' e e'
    rcases hst a' n' a n e' e with h | h
    · exact .inl h.symm
    · rw [abs_sub_comm]; exact .inr h⟩
  have := List.Pairwise.forall_of_forall (by
    intro s _ a n a' n' e e'
    rw [e] at e'; cases e'; exact .inl rfl) key h h'
  rcases this x m x m' rfl rfl with h | h
  · exact hne h
  · simp at h; exact absurd (h.trans_le' he) (lt_irrefl _)

theorem getDirac_iff [IsStrictOrderedRing K] {eps : K} (he : 0 ≤ eps) {l : PF K} (hl : PF.WF eps l)
    {x m : K} : PF.getDirac x l = some m ↔ Seg.dirac x m ∈ l := by
  refine ⟨getDirac_mem, fun h => ?_⟩
  obtain ⟨m', hm⟩ := getDirac_isSome h
  rw [hm, wf_atom_unique he hl (getDirac_mem hm) h]

theorem getDirac_none {x : K} {l : PF K} : PF.getDirac x l = none ↔ ∀ m, Seg.dirac x m ∉ l := by
  constructor
  · intro h m hm
    obtain ⟨m', h'⟩ := getDirac_isSome hm
    rw [h] at h'; simp at h'
  · intro h
    cases hg : PF.getDirac x l with
    | none => rfl
    | some m => exact absurd (getDirac_mem hg) (h m)

theorem massAt_zero {x : K} {l : PF K} (h : ∀ m, Seg.dirac x m ∉ l) : l.massAt x = 0 := by
  unfold PF.massAt
  rw [List.sum_eq_zero]
  intro y hy
  obtain ⟨s, hs, rfl⟩ := List.mem_map.1 hy
  cases s with
  | dirac a m =>
    simp only [Seg.massAt]
    rw [if_neg]
    rintro rfl
    exact h m hs
  | _ => rfl

theorem massAt_eq_getDirac [IsStrictOrderedRing K] {eps : K} (he : 0 ≤ eps) {l : PF K}
    (hl : PF.WF eps l) (x : K) : l.massAt x = (PF.getDirac x l).elim 0 id := by
  induction l with
  | nil => rfl
  | cons s l ih =>
    have hl' : PF.WF eps l := ⟨fun t ht => hl.seg t (by simp [ht]), (List.pairwise_cons.1 hl.sorted).2⟩
    have ih := ih hl'
    unfold PF.massAt at ih ⊢
    rw [List.map_cons, List.sum_cons]
    cases s with
    | dirac a m =>
      simp only [Seg.massAt, PF.getDirac]
      split
      · rename_i hax
        subst hax
        have := massAt_zero (x := a) (l := l) (by
          intro n hn
          have := ((List.pairwise_cons.1 hl.sorted).1 _ hn).2 _ _ _ _ rfl rfl
          simp at this
          exact absurd (this.trans_le' he) (lt_irrefl _))
        unfold PF.massAt at this
        simp [this]
      · simpa using ih
    | _ => simpa [Seg.massAt, PF.getDirac] using ih

/-- what `op_diracs` makes of the two masses at one place -/
def combMass (op : K → K → K) : Option K → Option K → Option K
  | none, m => m
  | some a, some b => some (op a b)
  | some a, none => some a

theorem setDirac_split {x m m' : K} {l : PF K} (h : PF.getDirac x l = some m) :
    ∃ l₁ l₂, l = l₁ ++ Seg.dirac x m :: l₂ ∧ PF.setDirac x m' l = l₁ ++ Seg.dirac x m' :: l₂ := by
  induction l with
  | nil => simp [PF.getDirac] at h
  | cons s l ih =>
    cases s with
    | dirac a n =>
      simp only [PF.getDirac] at h
      split at h
      · rename_i hax
        simp only [Option.some.injEq] at h
        subst h; subst hax
        exact ⟨[], l, rfl, by simp [PF.setDirac]⟩
      · rename_i hax
        obtain ⟨l₁, l₂, h₁, h₂⟩ := ih h
        exact ⟨Seg.dirac a n :: l₁, l₂, by simp [h₁], by simp [PF.setDirac, hax, h₂]⟩
    | _ =>
      obtain ⟨l₁, l₂, h₁, h₂⟩ := ih h
      exact ⟨_ :: l₁, l₂, by rw [h₁]; rfl, by simp [PF.setDirac, h₂]⟩

theorem getDirac_setDirac {x m : K} {l : PF K} {y : K} :
    PF.getDirac y (PF.setDirac x m l) =
      if y = x then (PF.getDirac x l).map (fun _ => m) else PF.getDirac y l := by
  induction l with
  | nil => simp [PF.getDirac, PF.setDirac]
  | cons s l ih =>
    cases s with
    | dirac a n =>
      by_cases hax : a = x
      · subst hax
        by_cases hy : a = y
        · subst hy; simp [PF.setDirac, PF.getDirac]
        · have hy' : y ≠ a := fun h => hy h.symm
          simp [PF.setDirac, PF.getDirac, hy, hy']
      · by_cases hy : a = y
        · subst hy; simp [PF.setDirac, PF.getDirac, hax]
        · simp only [PF.setDirac, hax, if_false, PF.getDirac, hy]
          exact ih
    | _ => simpa only [PF.setDirac, PF.getDirac] using ih

theorem opDiracsLoop_ok [IsStrictOrderedRing K] {eps : K} (he : 0 ≤ eps) {op : K → K → K}
    {other : PF K} (ho : PF.WF eps other) :
    ∀ (xs : List K) (self : PF K), xs.Nodup → PF.WF eps self →
      (∀ x m, Seg.dirac x m ∈ other → ∀ t ∈ self, Seg.Compat eps (.dirac x m) t) →
      (∀ x ∈ xs, PF.getDirac x self ≠ none ∨ PF.getDirac x other ≠ none) →
      ∃ r, PF.opDiracsLoop eps op other xs self = some r ∧ PF.WF eps r ∧
        (PF.segs r).Perm (PF.segs self) ∧
        (∀ y, PF.getDirac y r = if y ∈ xs then combMass op (PF.getDirac y self) (PF.getDirac y other)
          else PF.getDirac y self) := by
  intro xs
  induction xs with
  | nil => intro self _ hs _ _; exact ⟨self, rfl, hs, List.Perm.refl _, by simp⟩
  | cons x xs ih =>
    intro self hnd hs hc hx
    rw [List.nodup_cons] at hnd
    simp only [PF.opDiracsLoop]
    cases h₁ : PF.getDirac x self with
    | none =>
      cases h₂ : PF.getDirac x other with
      | none => exact absurd (hx x (by simp)) (by simp [h₁, h₂])
      | some mo =>
        have hmem := getDirac_mem h₂
        have hdis : ∀ t ∈ self, Seg.Disjoint eps (.dirac x mo) t := by
          intro t ht
          rcases hc x mo hmem t ht with h | ⟨a, m, m', e, rfl⟩
          · exact h
          · cases e; exact absurd ht (getDirac_none.1 h₁ m')
        obtain ⟨r, hr, hp, hw⟩ := addSegment_wf he (s := .dirac x mo) trivial hs hdis
        have hg : ∀ y, PF.getDirac y r = if y = x then some mo else PF.getDirac y self := by
          intro y
          split
          · rename_i hyx
            subst hyx
            rw [getDirac_iff he hw, hp.mem_iff]; simp
          · rename_i hyx
            ext m
            rw [getDirac_iff he hw, getDirac_iff he hs, hp.mem_iff]
            simp [hyx]
        obtain ⟨r', hr', hw', hp', hg'⟩ := ih r hnd.2 hw (by
          intro y m hy t ht
          rcases List.mem_cons.1 (hp.mem_iff.1 ht) with rfl | ht
          · by_cases hyx : y = x
            · subst hyx; exact .inr ⟨y, m, mo, rfl, rfl⟩
            · left
              have sym : Std.Symm (fun s t : Seg K => s = t ∨ Seg.Disjoint eps s t) := ⟨by
                rintro s t (h | h)
                · exact .inl h.symm
                · exact .inr h.symm⟩
              have := List.Pairwise.forall_of_forall (fun _ _ => .inl rfl)
                (ho.sorted.imp (S := fun s t => s = t ∨ Seg.Disjoint eps s t)
                (fun h => .inr (.inl h))) hy hmem
              rcases this with h | h
              · cases h; exact absurd rfl hyx
              · exact h
          · exact hc y m hy t ht) (by
          intro y hy
          have hyx : y ≠ x := fun h => hnd.1 (h ▸ hy)
          rw [hg]; simp only [hyx, if_false]
          exact hx y (by simp [hy]))
        refine ⟨r', by simp [hr, hr'], hw', ?_, ?_⟩
        · refine hp'.trans ?_
          have := hp.filter (fun s => !s.isDirac)
          unfold PF.segs
          refine this.trans ?_
          rw [List.filter_cons]; simp [Seg.isDirac]
        · intro y
          rw [hg' y]
          by_cases hyx : y = x
          · subst hyx
            simp [hnd.1, hg, h₁, h₂, combMass]
          · simp [hg, hyx]
    | some ms =>
      cases h₂ : PF.getDirac x other with
      | none =>
        obtain ⟨r', hr', hw', hp', hg'⟩ := ih self hnd.2 hs hc (fun y hy => hx y (by simp [hy]))
        refine ⟨r', hr', hw', hp', ?_⟩
        intro y
        rw [hg' y]
        by_cases hyx : y = x
        · subst hyx; simp [hnd.1, h₁, h₂, combMass]
        · simp [hyx]
      | some mo =>
        obtain ⟨l₁, l₂, e₁, e₂⟩ := setDirac_split (m' := op ms mo) h₁
        have hw : PF.WF eps (PF.setDirac x (op ms mo) self) := by
          rw [e₂]; rw [e₁] at hs; exact wf_change_mass hs
        obtain ⟨r', hr', hw', hp', hg'⟩ := ih _ hnd.2 hw (by
          intro y m hy t ht
          rw [e₂] at ht
          rcases List.mem_append.1 ht with ht | ht
          · exact hc y m hy t (by rw [e₁]; simp [ht])
          · rcases List.mem_cons.1 ht with rfl | ht
            · exact compat_dirac (hc y m hy (.dirac x ms) (by rw [e₁]; simp))
            · exact hc y m hy t (by rw [e₁]; simp [ht])) (by
          intro y hy
          have hyx : y ≠ x := fun h => hnd.1 (h ▸ hy)
          rw [getDirac_setDirac]; simp only [hyx, if_false]
          exact hx y (by simp [hy]))
        refine ⟨r', hr', hw', ?_, ?_⟩
        · refine hp'.trans ?_
          rw [e₂]
          conv_rhs => rw [e₁]
          simp [PF.segs, Seg.isDirac]
        · intro y
          rw [hg' y]
          by_cases hyx : y = x
          · subst hyx
            simp [hnd.1, getDirac_setDirac, h₁, h₂, combMass]
          · simp [getDirac_setDirac, hyx]

theorem mem_diracPos {x : K} {l : PF K} : x ∈ PF.diracPos l ↔ ∃ m, Seg.dirac x m ∈ l := by
  induction l with
  | nil => simp [PF.diracPos]
  | cons s l ih =>
    cases s with
    | dirac a n =>
      simp only [PF.diracPos, List.mem_cons, ih, Seg.dirac.injEq]
      constructor
      · rintro (rfl | ⟨m, h⟩)
        · exact ⟨n, .inl ⟨rfl, rfl⟩⟩
        · exact ⟨m, .inr h⟩
      · rintro ⟨m, ⟨rfl, _⟩ | h⟩
        · exact .inl rfl
        · exact .inr ⟨m, h⟩
    | _ => simp [PF.diracPos, ih]

theorem diracPos_nodup [IsStrictOrderedRing K] {eps : K} (he : 0 ≤ eps) {l : PF K}
    (hl : PF.WF eps l) : (PF.diracPos l).Nodup := by
  induction l with
  | nil => simp [PF.diracPos]
  | cons s l ih =>
    have hl' : PF.WF eps l := ⟨fun t ht => hl.seg t (by simp [ht]), (List.pairwise_cons.1 hl.sorted).2⟩
    cases s with
    | dirac a n =>
      simp only [PF.diracPos, List.nodup_cons]
      refine ⟨?_, ih hl'⟩
      intro h
      obtain ⟨m, hm⟩ := mem_diracPos.1 h
      have := ((List.pairwise_cons.1 hl.sorted).1 _ hm).2 _ _ _ _ rfl rfl
      simp at this
      exact absurd (this.trans_le' he) (lt_irrefl _)
    | _ => exact ih hl'

theorem foldl_uniq {acc xs : List K} (h : acc.Nodup) :
    (xs.foldl (fun acc x => if x ∈ acc then acc else acc ++ [x]) acc).Nodup ∧
    ∀ y, y ∈ xs.foldl (fun acc x => if x ∈ acc then acc else acc ++ [x]) acc ↔ y ∈ acc ∨ y ∈ xs := by
  induction xs generalizing acc with
  | nil => simpa using h
  | cons x xs ih =>
    rw [List.foldl_cons]
    split
    · rename_i hx
      refine ⟨(ih h).1, fun y => ?_⟩
      rw [(ih h).2, List.mem_cons]
      constructor
      · rintro (h | h)
        · exact .inl h
        · exact .inr (.inr h)
      · rintro (h | rfl | h)
        · exact .inl h
        · exact .inl hx
        · exact .inr h
    · rename_i hx
      have hn : (acc ++ [x]).Nodup := by
        rw [List.nodup_append]
        refine ⟨h, by simp, ?_⟩
        intro a ha b hb
        simp only [List.mem_singleton] at hb
        subst hb; rintro rfl; exact hx ha
      refine ⟨(ih hn).1, fun y => ?_⟩
      rw [(ih hn).2, List.mem_append, List.mem_singleton, List.mem_cons, or_assoc]

theorem opDiracs_ok [IsStrictOrderedRing K] {eps : K} (he : 0 ≤ eps) {op : K → K → K}
    {self other : PF K} (hs : PF.WF eps self) (ho : PF.WF eps other)
    (hc : ∀ x m, Seg.dirac x m ∈ other → ∀ t ∈ self, Seg.Compat eps (.dirac x m) t) :
    ∃ r, PF.opDiracs eps op self other = some r ∧ PF.WF eps r ∧
      (PF.segs r).Perm (PF.segs self) ∧
      (∀ y, PF.getDirac y r = combMass op (PF.getDirac y self) (PF.getDirac y other)) := by
  have hn := foldl_uniq (xs := PF.diracPos other) (diracPos_nodup he hs)
  obtain ⟨r, h₁, h₂, h₃, h₄⟩ := opDiracsLoop_ok he (op := op) ho _ self hn.1 hs hc (by
    intro x hx
    rcases (hn.2 x).1 hx with h | h
    · left
      obtain ⟨m, hm⟩ := mem_diracPos.1 h
      intro hno; exact getDirac_none.1 hno m hm
    · right
      obtain ⟨m, hm⟩ := mem_diracPos.1 h
      intro hno; exact getDirac_none.1 hno m hm)
  refine ⟨r, h₁, h₂, h₃, ?_⟩
  intro y
  rw [h₄ y]
  split
  · rfl
  · rename_i hy
    rw [hn.2, not_or] at hy
    have e₁ : PF.getDirac y self = none := getDirac_none.2 (fun m hm => hy.1 (mem_diracPos.2 ⟨m, hm⟩))
    have e₂ : PF.getDirac y other = none := getDirac_none.2 (fun m hm => hy.2 (mem_diracPos.2 ⟨m, hm⟩))
    rw [e₁, e₂]; rfl

theorem cutBy_split {eps : K} {f : PF K} (hf : PF.WF eps f) {B₀ B : List (Ext K)}
    (hB₀ : B₀.Pairwise (· < ·)) (hsub : ∀ e ∈ B, e ∈ B₀)
    (hin : ∀ s ∈ f.flatMap (PF.splitSeg (PF.finites B₀)), s.lo ∈ B ∧ s.hi ∈ B) :
    CutBy (f.flatMap (PF.splitSeg (PF.finites B₀))) B :=
  ⟨fun s hs => (hin s hs).1, fun s hs => (hin s hs).2,
   fun _ hs e he => split_cut (finites_sorted hB₀) hf hs (hsub e he)⟩

theorem split_ends {eps : K} {f : PF K} (hf : PF.WF eps f) {B₀ : List (Ext K)}
    (hB₀ : B₀.Pairwise (· < ·)) (hin : ∀ s ∈ f, s.lo ∈ B₀ ∧ s.hi ∈ B₀) {t : Seg K}
    (ht : t ∈ f.flatMap (PF.splitSeg (PF.finites B₀))) : t.lo ∈ B₀ ∧ t.hi ∈ B₀ := by
  obtain ⟨s, hs, hts⟩ := List.mem_flatMap.1 ht
  have := (splitSeg_ok eps (finites_sorted hB₀) (hf.seg s hs)).ends t hts
  constructor
  · rcases this.1 with h | ⟨p, hp, h⟩
    · rw [h]; exact (hin s hs).1
    · rw [h]; exact mem_finites.1 hp
  · rcases this.2 with h | ⟨p, hp, h⟩
    · rw [h]; exact (hin s hs).2
    · rw [h]; exact mem_finites.1 hp

/-- Everything about `_operation__`: it succeeds, its continuous part is the pointwise result and its
atoms are combined by `combMass`. -/
theorem operation_ok [IsStrictOrderedRing K] {eps : K} (he : 0 ≤ eps) {op : K → K → K}
    (h0 : op 0 0 = 0) {f g : PF K} (hf : PF.WF eps f) (hg : PF.WF eps g)
    (hfg : ∀ a m a' m', Seg.dirac a m ∈ f → Seg.dirac a' m' ∈ g → a = a' ∨ eps < |a - a'|) :
    ∃ r, PF.operation eps op f g = some r ∧ PF.WF eps r ∧
      (∀ x, r.val x = op (f.val x) (g.val x)) ∧
      (∀ y, PF.getDirac y r = combMass op (PF.getDirac y f) (PF.getDirac y g)) := by
  set B₀ := PF.npUnique (PF.getBreaks f ++ PF.getBreaks g) with hB₀def
  have hB₀ : B₀.Pairwise (· < ·) := npUnique_sorted _
  have inB₀ : ∀ s, s ∈ f ∨ s ∈ g → s.lo ∈ B₀ ∧ s.hi ∈ B₀ := by
    intro s hs
    simp only [hB₀def, mem_npUnique, List.mem_append, mem_getBreaks]
    rcases hs with hs | hs
    · exact ⟨.inl ⟨s, hs, .inl rfl⟩, .inl ⟨s, hs, .inr rfl⟩⟩
    · exact ⟨.inr ⟨s, hs, .inl rfl⟩, .inr ⟨s, hs, .inr rfl⟩⟩
  set f' := f.flatMap (PF.splitSeg (PF.finites B₀)) with hf'def
  set g' := g.flatMap (PF.splitSeg (PF.finites B₀)) with hg'def
  set B := PF.npUnique (PF.getBreaks f' ++ PF.getBreaks g') with hBdef
  have hB : B.Pairwise (· < ·) := npUnique_sorted _
  have inB : ∀ s, s ∈ f' ∨ s ∈ g' → s.lo ∈ B ∧ s.hi ∈ B := by
    intro s hs
    simp only [hBdef, mem_npUnique, List.mem_append, mem_getBreaks]
    rcases hs with hs | hs
    · exact ⟨.inl ⟨s, hs, .inl rfl⟩, .inl ⟨s, hs, .inr rfl⟩⟩
    · exact ⟨.inr ⟨s, hs, .inl rfl⟩, .inr ⟨s, hs, .inr rfl⟩⟩
  have hsub : ∀ e ∈ B, e ∈ B₀ := by
    intro e hb
    simp only [hBdef, mem_npUnique, List.mem_append, mem_getBreaks] at hb
    rcases hb with ⟨s, hs, rfl | rfl⟩ | ⟨s, hs, rfl | rfl⟩
    · exact (split_ends hf hB₀ (fun s hs => inB₀ s (.inl hs)) hs).1
    · exact (split_ends hf hB₀ (fun s hs => inB₀ s (.inl hs)) hs).2
    · exact (split_ends hg hB₀ (fun s hs => inB₀ s (.inr hs)) hs).1
    · exact (split_ends hg hB₀ (fun s hs => inB₀ s (.inr hs)) hs).2
  have hf' : PF.WF eps f' := split_wf (finites_sorted hB₀) hf
  have hg' : PF.WF eps g' := split_wf (finites_sorted hB₀) hg
  have cf : CutBy f' B := cutBy_split hf hB₀ hsub (fun s hs => inB s (.inl hs))
  have cg : CutBy g' B := cutBy_split hg hB₀ hsub (fun s hs => inB s (.inr hs))
  obtain ⟨ps, eps_, hw, h₁, h₂⟩ := opPieces_ok (op := op) hf' hg' hB
  have hval := opPieces_val h0 hB hf' hg' cf cg hw h₁ h₂
  -- atoms of `f` and `g` survive in `f'`, `g'` and are therefore never inside a new piece
  have hatom : ∀ x m, (Seg.dirac x m ∈ f ∨ Seg.dirac x m ∈ g) → ∀ t ∈ ps.flatten,
      Seg.Disjoint eps (.dirac x m) t := by
    intro x m hx t ht
    have hxB : Ext.fin x ∈ B := by
      have : Seg.dirac x m ∈ f' ∨ Seg.dirac x m ∈ g' := by
        rcases hx with h | h
        · exact .inl (List.mem_flatMap.2 ⟨_, h, by simp [PF.splitSeg]⟩)
        · exact .inr (List.mem_flatMap.2 ⟨_, h, by simp [PF.splitSeg]⟩)
      exact (inB _ this).1
    have hd := (h₁ t ht).1
    have := (neighbours_lt hB (h₁ t ht).2.1).2.2.2 _ hxB
    rw [not_and_or, not_lt, not_lt] at this
    rcases this with h | h
    · exact .inl ⟨h, fun _ _ _ _ _ e => by rw [e] at hd; simp [Seg.isDirac] at hd⟩
    · exact .inr (leftOf_of_nodirac h hd)
  have hnod : ∀ y, PF.getDirac y ps.flatten = none := by
    intro y
    rw [getDirac_none]
    intro m hm
    have := (h₁ _ hm).1
    simp [Seg.isDirac] at this
  obtain ⟨r₁, e₁, w₁, p₁, d₁⟩ := opDiracs_ok he (op := op) hw hf
    (fun x m hx t ht => .inl (hatom x m (.inl hx) t ht))
  obtain ⟨r₂, e₂, w₂, p₂, d₂⟩ := opDiracs_ok he (op := op) w₁ hg (by
    intro x m hx t ht
    by_cases hd : t.isDirac = true
    · obtain ⟨y, n, rfl⟩ : ∃ y n, t = .dirac y n := by cases t <;> simp_all [Seg.isDirac]
      have hy : PF.getDirac y f ≠ none := by
        intro hno
        have := (getDirac_iff he w₁).2 ht
        rw [d₁ y, hnod y, hno] at this
        simp [combMass] at this
      obtain ⟨m', hm'⟩ := Option.ne_none_iff_exists'.1 hy
      rcases hfg y m' x m (getDirac_mem hm') hx with rfl | h
      · exact .inr ⟨y, m, n, rfl, rfl⟩
      · left
        rcases le_total x y with hle | hle
        · left
          refine ⟨by simpa [Seg.lo, Seg.hi] using hle, ?_⟩
          intro _ _ _ _ e e'; cases e; cases e'; rwa [abs_sub_comm]
        · right
          refine ⟨by simpa [Seg.lo, Seg.hi] using hle, ?_⟩
          intro _ _ _ _ e e'; cases e; cases e'; exact h
    · left
      refine hatom x m (.inr hx) t ?_
      have : t ∈ PF.segs r₁ := List.mem_filter.2 ⟨ht, by simpa using hd⟩
      exact (List.mem_filter.1 (p₁.mem_iff.1 this)).1)
  refine ⟨r₂, ?_, w₂, ?_, ?_⟩
  · unfold PF.operation
    simp only [← hB₀def]
    rw [splitByPoints_eq he (finites_sorted hB₀) hf, splitByPoints_eq he (finites_sorted hB₀) hg]
    simp only [Option.bind_eq_bind, Option.bind_some, ← hf'def, ← hg'def, ← hBdef, eps_,
      addAll_self he hw, e₁, e₂]
  · intro x
    rw [val_perm_segs (p₂.trans p₁) x, hval x, (split_val (finites_sorted hB₀) hf x).1,
      (split_val (finites_sorted hB₀) hg x).1]
  · intro y
    rw [d₂ y, d₁ y, hnod y]
    rfl

end Pacal
