import Verif.Segments.Lemmas

/-! Helper lemmas about atoms in histories of `addSegment`. -/

set_option linter.unusedSectionVars false

namespace Pacal
variable {K : Type*} [Field K] [LinearOrder K]

theorem mergeDirac_some {eps a m : K} {l r : PF K} (h : PF.mergeDirac eps a m l = some r) :
    ∃ l₁ a' m' l₂, l = l₁ ++ Seg.dirac a' m' :: l₂ ∧ r = l₁ ++ Seg.dirac a' (m' + m) :: l₂ ∧
      |a - a'| ≤ eps := by
  induction l generalizing r with
  | nil => simp [PF.mergeDirac] at h
  | cons s l ih =>
    have key : ∀ s : Seg K, (PF.mergeDirac eps a m l).map (s :: ·) = some r →
        ∃ l₁ a' m' l₂, s :: l = l₁ ++ Seg.dirac a' m' :: l₂ ∧
          r = l₁ ++ Seg.dirac a' (m' + m) :: l₂ ∧ |a - a'| ≤ eps := by
      intro s h
      rw [Option.map_eq_some_iff] at h
      obtain ⟨r', hr', rfl⟩ := h
      obtain ⟨l₁, a', m', l₂, h₁, h₂, h₃⟩ := ih hr'
      exact ⟨s :: l₁, a', m', l₂, by simp [h₁], by simp [h₂], h₃⟩
    cases s with
    | dirac a' m' =>
      simp only [PF.mergeDirac] at h
      split at h
      · rename_i hc
        simp only [Option.some.injEq] at h
        exact ⟨[], a', m', l, rfl, h.symm, hc⟩
      · exact key _ h
    | fin pole a b f => exact key _ h
    | const a b c => exact key _ h
    | minf b f => exact key _ h
    | pinf b f => exact key _ h

theorem mergeDirac_isSome {eps a m a' m' : K} {l : PF K} (h : Seg.dirac a' m' ∈ l)
    (hc : |a - a'| ≤ eps) : ∃ r, PF.mergeDirac eps a m l = some r := by
  induction l with
  | nil => simp at h
  | cons s l ih =>
    rcases List.mem_cons.1 h with rfl | h
    · simp [PF.mergeDirac, hc]
    · obtain ⟨r, hr⟩ := ih h
      cases s <;> simp [PF.mergeDirac, hr]
      split <;> simp

theorem insertSeg_mass {l r : PF K} {s : Seg K} (h : PF.insertSeg l s = some r) :
    ∃ s' : Seg K, s'.mass = s.mass ∧ r.Perm (s' :: l) := by
  unfold PF.insertSeg at h
  split at h
  · simp only [Option.some.injEq] at h
    subst h; exact ⟨s, rfl, insort_perm _ _ _⟩
  · split at h
    · simp only [Option.some.injEq] at h
      subst h; exact ⟨s, rfl, insort_perm _ _ _⟩
    · split at h
      · split at h
        · simp only [Option.some.injEq] at h
          subst h; refine ⟨_, ?_, insort_perm _ _ _⟩; rfl
        · simp at h
      · split at h
        · simp only [Option.some.injEq] at h
          subst h; refine ⟨_, ?_, insort_perm _ _ _⟩; rfl
        · simp at h
      · split at h
        · simp only [Option.some.injEq] at h
          subst h; refine ⟨_, ?_, insort_perm _ _ _⟩; rfl
        · simp at h
      · split at h
        · simp only [Option.some.injEq] at h
          subst h; refine ⟨_, ?_, insort_perm _ _ _⟩; rfl
        · simp at h
      · simp at h

theorem addSegment_mass {eps : K} {l r : PF K} {s : Seg K} (h : PF.addSegment eps l s = some r) :
    r.atomMass = s.mass + l.atomMass := by
  have key : ∀ s : Seg K, PF.insertSeg l s = some r → r.atomMass = s.mass + l.atomMass := by
    intro s h
    obtain ⟨s', h₁, h₂⟩ := insertSeg_mass h
    unfold PF.atomMass
    rw [(h₂.map Seg.mass).sum_eq]
    simp [h₁]
  unfold PF.addSegment at h
  split at h
  · rename_i a m
    split at h
    · rename_i l' hl'
      simp only [Option.some.injEq] at h
      subst h
      obtain ⟨l₁, a', m', l₂, rfl, rfl, _⟩ := mergeDirac_some hl'
      simp only [PF.atomMass, List.map_append, List.map_cons, List.sum_append, List.sum_cons, Seg.mass]
      ring
    · exact key _ h
  · exact key _ h

theorem addAll_mass {eps : K} {ss : List (Seg K)} : ∀ {l r : PF K}, PF.addAll eps l ss = some r →
    r.atomMass = (ss.map Seg.mass).sum + l.atomMass := by
  induction ss with
  | nil => intro l r h; simp [PF.addAll] at h; simp [h]
  | cons s ss ih =>
    intro l r h
    simp only [PF.addAll, Option.bind_eq_some_iff] at h
    obtain ⟨l', h₁, h₂⟩ := h
    rw [ih h₂, addSegment_mass h₁]
    simp only [List.map_cons, List.sum_cons]
    ring

/-- Two pieces may be added together: they do not overlap, or they are atoms at the same place. -/
def Seg.Compat (eps : K) (s t : Seg K) : Prop :=
  Seg.Disjoint eps s t ∨ ∃ a m m', s = .dirac a m ∧ t = .dirac a m'

theorem Seg.Compat.symm {eps : K} {s t : Seg K} (h : Seg.Compat eps s t) : Seg.Compat eps t s := by
  rcases h with h | ⟨a, m, m', rfl, rfl⟩
  · exact .inl h.symm
  · exact .inr ⟨a, m', m, rfl, rfl⟩

theorem leftOf_dirac_right {eps : K} {s : Seg K} {a m m' : K} (h : s.LeftOf eps (.dirac a m)) :
    s.LeftOf eps (.dirac a m') := by
  refine ⟨h.1, ?_⟩
  intro b n b' n' h₁ h₂
  cases h₂
  exact h.2 b n a m h₁ rfl

theorem leftOf_dirac_left {eps : K} {s : Seg K} {a m m' : K} (h : Seg.LeftOf eps (.dirac a m) s) :
    Seg.LeftOf eps (.dirac a m') s := by
  refine ⟨h.1, ?_⟩
  intro b n b' n' h₁ h₂
  cases h₁
  exact h.2 a m b' n' rfl h₂

theorem compat_dirac {eps : K} {s : Seg K} {a m m' : K} (h : s.Compat eps (.dirac a m)) :
    s.Compat eps (.dirac a m') := by
  rcases h with (h | h) | ⟨b, n, n', rfl, h⟩
  · exact .inl (.inl (leftOf_dirac_right h))
  · exact .inl (.inr (leftOf_dirac_left h))
  · cases h; exact .inr ⟨a, n, m', rfl, rfl⟩

theorem wf_change_mass {eps : K} {l₁ l₂ : PF K} {a m m' : K}
    (h : PF.WF eps (l₁ ++ Seg.dirac a m :: l₂)) : PF.WF eps (l₁ ++ Seg.dirac a m' :: l₂) := by
  obtain ⟨h₁, h₂⟩ := h
  refine ⟨?_, ?_⟩
  · intro s hs
    rcases List.mem_append.1 hs with hs | hs
    · exact h₁ s (by simp [hs])
    · rcases List.mem_cons.1 hs with rfl | hs
      · trivial
      · exact h₁ s (by simp [hs])
  · rw [List.pairwise_append, List.pairwise_cons] at h₂ ⊢
    obtain ⟨p₁, ⟨p₂, p₃⟩, p₄⟩ := h₂
    refine ⟨p₁, ⟨fun t ht => leftOf_dirac_left (p₂ t ht), p₃⟩, ?_⟩
    intro s hs t ht
    rcases List.mem_cons.1 ht with rfl | ht
    · exact leftOf_dirac_right (p₄ s hs (.dirac a m) (by simp))
    · exact p₄ s hs t (by simp [ht])

/-- One step: adding a piece compatible with a well-formed function. -/
theorem addSegment_compat [IsStrictOrderedRing K] {eps : K} (he : 0 ≤ eps) {s : Seg K} (hs : s.WF)
    {l : PF K} (hl : PF.WF eps l) (hd : ∀ t ∈ l, Seg.Compat eps s t) :
    ∃ r, PF.addSegment eps l s = some r ∧ PF.WF eps r ∧
      (∀ x, r.massAt x = s.massAt x + l.massAt x) ∧
      (PF.segs r).Perm (PF.segs [s] ++ PF.segs l) ∧
      (∀ t ∈ r, t ∈ l ∨ t = s ∨ ∃ a m m', t = .dirac a m ∧ .dirac a m' ∈ l) := by
  by_cases hc : ∀ t ∈ l, Seg.Disjoint eps s t
  · obtain ⟨r, hr, hp, hw⟩ := addSegment_wf he hs hl hc
    refine ⟨r, hr, hw, ?_, ?_, ?_⟩
    · intro x
      unfold PF.massAt
      rw [(hp.map _).sum_eq]; simp
    · have := hp.filter (fun s => !s.isDirac)
      unfold PF.segs
      refine this.trans ?_
      rw [← List.filter_append]; simp
    · intro t ht
      rcases List.mem_cons.1 (hp.mem_iff.1 ht) with h | h
      · exact .inr (.inl h)
      · exact .inl h
  · push Not at hc
    obtain ⟨t, ht, hnd⟩ := hc
    rcases hd t ht with h | ⟨a, m, m', rfl, rfl⟩
    · exact absurd h hnd
    · obtain ⟨r, hr⟩ := mergeDirac_isSome (m := m) ht (a := a) (eps := eps) (by simpa using he)
      obtain ⟨l₁, a', n', l₂, rfl, rfl, hclose⟩ := mergeDirac_some hr
      have ha : a' = a := by
        by_contra hne
        have := hd (.dirac a' n') (by simp)
        rcases this with (h | h) | ⟨b, p, p', h, h'⟩
        · exact absurd (h.2 _ _ _ _ rfl rfl) (not_lt.2 hclose)
        · have := h.2 _ _ _ _ rfl rfl
          rw [abs_sub_comm] at this
          exact absurd this (not_lt.2 hclose)
        · cases h; cases h'; exact hne rfl
      subst ha
      refine ⟨l₁ ++ Seg.dirac a' (n' + m) :: l₂, by simp [PF.addSegment, hr], wf_change_mass hl, ?_, ?_, ?_⟩
      · intro x
        simp only [PF.massAt, List.map_append, List.map_cons, List.sum_append, List.sum_cons,
          Seg.massAt]
        split <;> ring
      · simp [PF.segs, Seg.isDirac]
      · intro t ht
        rcases List.mem_append.1 ht with ht | ht
        · exact .inl (by simp [ht])
        · rcases List.mem_cons.1 ht with rfl | ht
          · exact .inr (.inr ⟨a', n' + m, n', rfl, by simp⟩)
          · exact .inl (by simp [ht])

theorem addAll_compat [IsStrictOrderedRing K] {eps : K} (he : 0 ≤ eps) :
    ∀ (ss : List (Seg K)) (l : PF K), PF.WF eps l → (∀ s ∈ ss, s.WF) →
      ss.Pairwise (Seg.Compat eps) → (∀ s ∈ ss, ∀ t ∈ l, Seg.Compat eps s t) →
      ∃ r, PF.addAll eps l ss = some r ∧ PF.WF eps r ∧
        (∀ x, r.massAt x = PF.massAt ss x + l.massAt x) ∧
        (PF.segs r).Perm (PF.segs ss ++ PF.segs l) ∧
        (∀ t ∈ r, t ∈ l ∨ t ∈ ss ∨ ∃ a m m', t = .dirac a m ∧ (.dirac a m' ∈ l ∨ .dirac a m' ∈ ss)) := by
  intro ss
  induction ss with
  | nil => intro l hl _ _ _; exact ⟨l, rfl, hl, by simp [PF.massAt], by simp [PF.segs],
      fun t ht => .inl ht⟩
  | cons s ss ih =>
    intro l hl hw hp hd
    obtain ⟨r, hr, hwf, hm, hperm, hmem⟩ :=
      addSegment_compat he (hw s (by simp)) hl (hd s (by simp))
    rw [List.pairwise_cons] at hp
    obtain ⟨r', hr', hwf', hm', hperm', hmem'⟩ := ih r hwf (fun t ht => hw t (by simp [ht])) hp.2 (by
      intro u hu t ht
      rcases hmem t ht with h | rfl | ⟨a, m, m', rfl, h⟩
      · exact hd u (by simp [hu]) t h
      · exact (hp.1 u hu).symm
      · exact compat_dirac (hd u (by simp [hu]) _ h))
    refine ⟨r', by simp [PF.addAll, hr, hr'], hwf', ?_, ?_, ?_⟩
    · intro x; rw [hm', hm]
      simp only [PF.massAt, List.map_cons, List.sum_cons]; ring
    · refine hperm'.trans ((List.Perm.append_left _ hperm).trans ?_)
      have : PF.segs (s :: ss) = PF.segs [s] ++ PF.segs ss := by
        unfold PF.segs; rw [← List.filter_append]; rfl
      rw [this, ← List.append_assoc, ]
      exact List.Perm.append_right _ List.perm_append_comm
    · intro t ht
      rcases hmem' t ht with h | h | ⟨a, m, m', rfl, h | h⟩
      · rcases hmem t h with h₁ | h₁ | ⟨a, m, m', h₁, h₂⟩
        · exact .inl h₁
        · exact .inr (.inl (by simp [h₁]))
        · exact .inr (.inr ⟨a, m, m', h₁, .inl h₂⟩)
      · exact .inr (.inl (by simp [h]))
      · rcases hmem _ h with h | h | ⟨a', n, n', h', h⟩
        · exact .inr (.inr ⟨a, m, m', rfl, .inl h⟩)
        · exact .inr (.inr ⟨a, m, m', rfl, .inr (by simp [h])⟩)
        · cases h'
          exact .inr (.inr ⟨a, m, n', rfl, .inl h⟩)
      · exact .inr (.inr ⟨a, m, m', rfl, .inr (by simp [h])⟩)

theorem val_eq_segs (l : PF K) (x : K) : l.val x = PF.val (PF.segs l) x := by
  induction l with
  | nil => rfl
  | cons s l ih =>
    unfold PF.val PF.segs at *
    rw [List.map_cons, List.sum_cons, ih, List.filter_cons]
    split
    · simp
    · rename_i h
      have : s.val x = 0 := by
        unfold Seg.val; rw [if_neg]; simp at h; simp [h]
      simp [this]

theorem val_perm_segs {l l' : PF K} (h : (PF.segs l).Perm (PF.segs l')) (x : K) :
    l.val x = l'.val x := by
  rw [val_eq_segs l, val_eq_segs l']
  unfold PF.val
  exact (h.map _).sum_eq

end Pacal
