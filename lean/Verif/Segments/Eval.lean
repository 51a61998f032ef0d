import Verif.Segments.Atoms

/-! Helper lemmas about evaluation of piecewise functions. -/

set_option linter.unusedSectionVars false

namespace Pacal
variable {K : Type*} [Field K] [LinearOrder K]

theorem lt_dirac_iff {y : Seg K} (hy : y.WF) {x : K} :
    y.lt (.dirac x 0) = true ↔ y.hi ≤ .fin x ∧ ¬ (y.isDirac = true ∧ y.lo = .fin x) := by
  rw [Seg.lt_iff]
  change (y.lo ≤ .fin x ∧ y.hi < .fin x) ∨ (y.lo < .fin x ∧ y.hi ≤ .fin x) ↔ _
  have h := Seg.lo_le_hi hy
  constructor
  · rintro (⟨h₁, h₂⟩ | ⟨h₁, h₂⟩)
    · refine ⟨h₂.le, ?_⟩
      rintro ⟨_, h₃⟩
      rw [h₃] at h
      exact absurd h (not_le.2 h₂)
    · refine ⟨h₂, ?_⟩
      rintro ⟨_, h₃⟩
      exact absurd h₃ h₁.ne
  · rintro ⟨h₁, h₂⟩
    by_cases hd : y.isDirac = true
    · right
      exact ⟨lt_of_le_of_ne (h.trans h₁) (fun h' => h₂ ⟨hd, h'⟩), h₁⟩
    · right
      exact ⟨(Seg.lo_lt_hi hy (by simpa using hd)).trans_le h₁, h₁⟩

theorem wf_append {eps : K} {l₁ l₂ : PF K} (h : PF.WF eps (l₁ ++ l₂)) :
    PF.WF eps l₁ ∧ PF.WF eps l₂ ∧ ∀ s ∈ l₁, ∀ t ∈ l₂, s.LeftOf eps t := by
  have := List.pairwise_append.1 h.sorted
  exact ⟨⟨fun s hs => h.seg s (by simp [hs]), this.1⟩, ⟨fun s hs => h.seg s (by simp [hs]), this.2.1⟩,
    this.2.2⟩

/-- position found by the binary search of `findSegment` -/
theorem bisect_find {eps : K} {l₁ l₂ : PF K} {x : K} (hl : PF.WF eps (l₁ ++ l₂))
    (h₁ : ∀ y ∈ l₁, y.hi ≤ .fin x ∧ ¬ (y.isDirac = true ∧ y.lo = .fin x))
    (h₂ : ∀ y ∈ l₂, ¬ (y.hi ≤ .fin x ∧ ¬ (y.isDirac = true ∧ y.lo = .fin x))) :
    bisectLeft Seg.lt (l₁ ++ l₂) (.dirac x 0) = l₁.length := by
  refine bisectBy_append _ _ _ ?_ ?_
  · intro y hy
    exact (lt_dirac_iff (hl.seg y (by simp [hy]))).2 (h₁ y hy)
  · intro y hy
    have := mt (lt_dirac_iff (hl.seg y (by simp [hy]))).1 (h₂ y hy)
    simpa using this

/-- what `findSegment` returns when the search stops at a piece `s` -/
theorem findSegment_mid {eps : K} {l₁ l₂ : PF K} {s : Seg K} {x : K}
    (hl : PF.WF eps (l₁ ++ s :: l₂))
    (h₁ : ∀ y ∈ l₁, y.hi ≤ .fin x ∧ ¬ (y.isDirac = true ∧ y.lo = .fin x))
    (h₂ : ∀ y ∈ s :: l₂, ¬ (y.hi ≤ .fin x ∧ ¬ (y.isDirac = true ∧ y.lo = .fin x))) :
    PF.findSegment (l₁ ++ s :: l₂) x =
      some (if l₁ = [] then (if s.lo ≤ .fin x ∧ .fin x ≤ s.hi then some s else none) else some s) := by
  unfold PF.findSegment
  rw [bisect_find hl h₁ h₂]
  cases l₁ with
  | nil => simp
  | cons t l₁ =>
    have h : (0 < (t :: l₁).length ∧ (t :: l₁).length < ((t :: l₁) ++ s :: l₂).length) := by simp
    simp

theorem findSegment_end {eps : K} {l : PF K} {s : Seg K} {x : K} (hl : PF.WF eps (l ++ [s]))
    (h₁ : ∀ y ∈ l ++ [s], y.hi ≤ .fin x ∧ ¬ (y.isDirac = true ∧ y.lo = .fin x)) :
    PF.findSegment (l ++ [s]) x = some (if s.hi = .fin x then some s else none) := by
  unfold PF.findSegment
  have : bisectLeft Seg.lt (l ++ [s]) (.dirac x 0) = (l ++ [s]).length := by
    have := bisect_find (l₁ := l ++ [s]) (l₂ := []) (by simpa using hl) h₁ (by simp)
    simpa using this
  rw [this]
  simp

theorem val_split {eps : K} {l₁ l₂ : PF K} {s : Seg K} {x : K} (hl : PF.WF eps (l₁ ++ s :: l₂))
    (hs : s.isDirac = false) (ha : s.lo ≤ .fin x) (hb : .fin x < s.hi) :
    PF.val (l₁ ++ s :: l₂) x = s.fn x := by
  obtain ⟨-, hw, hc⟩ := wf_append hl
  have e₁ : ∀ t ∈ l₁, t.val x = 0 := by
    intro t ht
    have := (hc t ht s (by simp)).1
    unfold Seg.val
    rw [if_neg]
    rintro ⟨-, -, h⟩
    exact absurd (h.trans_le (this.trans ha)) (lt_irrefl _)
  have e₂ : ∀ t ∈ l₂, t.val x = 0 := by
    intro t ht
    have := ((List.pairwise_cons.1 hw.sorted).1 t ht).1
    unfold Seg.val
    rw [if_neg]
    rintro ⟨-, h, -⟩
    exact absurd (hb.trans_le (this.trans h)) (lt_irrefl _)
  unfold PF.val
  rw [List.map_append, List.map_cons, List.sum_append, List.sum_cons]
  rw [List.sum_eq_zero (l := l₁.map _) (by simpa using e₁),
    List.sum_eq_zero (l := l₂.map _) (by simpa using e₂)]
  simp [Seg.val, hs, ha, hb]

theorem evalVecLoop_eq {x : K} {l : PF K} {y : K}
    (h : ∀ s ∈ l, ¬ (s.lo ≤ .fin x ∧ .fin x < s.hi)) : PF.evalVecLoop x l y = y := by
  induction l generalizing y with
  | nil => rfl
  | cons s l ih =>
    simp only [PF.evalVecLoop, if_neg (h s (by simp))]
    exact ih (fun t ht => h t (by simp [ht]))

theorem evalVecLoop_append {x : K} (l₁ l₂ : PF K) (y : K) :
    PF.evalVecLoop x (l₁ ++ l₂) y = PF.evalVecLoop x l₂ (PF.evalVecLoop x l₁ y) := by
  induction l₁ generalizing y with
  | nil => rfl
  | cons s l ih => simp [PF.evalVecLoop, ih]

theorem segs_wf {eps : K} {l : PF K} (h : PF.WF eps l) : PF.WF eps (PF.segs l) :=
  ⟨fun s hs => h.seg s (List.mem_filter.1 hs).1, h.sorted.filter _⟩

theorem evalVecLoop_val {eps : K} {l : PF K} (hl : PF.WF eps l) (hd : ∀ s ∈ l, s.isDirac = false)
    (x : K) : PF.evalVecLoop x l 0 = l.val x := by
  by_cases h : ∃ s ∈ l, s.lo ≤ .fin x ∧ .fin x < s.hi
  · obtain ⟨s, hs, ha, hb⟩ := h
    obtain ⟨l₁, l₂, rfl⟩ := List.append_of_mem hs
    rw [val_split hl (hd s hs) ha hb, evalVecLoop_append]
    simp only [PF.evalVecLoop, ha, hb, and_self, if_true]
    apply evalVecLoop_eq
    intro t ht
    have := ((List.pairwise_cons.1 (wf_append hl).2.1.sorted).1 t ht).1
    rintro ⟨h, -⟩
    exact absurd (hb.trans_le (this.trans h)) (lt_irrefl _)
  · push Not at h
    rw [evalVecLoop_eq (by intro s hs ⟨h₁, h₂⟩; exact absurd h₂ (not_lt.2 (h s hs h₁)))]
    unfold PF.val
    rw [List.sum_eq_zero]
    intro y hy
    obtain ⟨s, hs, rfl⟩ := List.mem_map.1 hy
    unfold Seg.val
    rw [if_neg]
    rintro ⟨-, h₁, h₂⟩
    exact absurd h₂ (not_lt.2 (h s hs h₁))

end Pacal
