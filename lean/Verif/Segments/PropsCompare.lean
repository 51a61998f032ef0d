import Verif.Segments.Compare
import Verif.Segments.Lemmas

/-!
# Property C108

Comparisons of the pieces of a distribution.
-/

namespace Pacal
variable {K : Type*} [Field K] [LinearOrder K]

/-- **C108** (partial: `<` and `>`).  `s < t` means that neither end of `s` is to the right of that of `t`, and one is to the left.  This is
a strict partial order, and `>` is its converse. -/
theorem C108_order_partial (s t u : Seg K) :
    (s.lt t = true ↔ s.lo ≤ t.lo ∧ s.hi ≤ t.hi ∧ (s.lo, s.hi) ≠ (t.lo, t.hi)) ∧ (s.gt t = t.lt s) ∧ s.lt s = false ∧
      (s.lt t = true → t.lt u = true → s.lt u = true) ∧ (s.lt t = true → t.lt s = false) := by
  refine ⟨?_, rfl, Seg.lt_irrefl s, Seg.lt_trans, fun h => ?_⟩
  · rw [Seg.lt_iff]
    constructor
    · rintro (⟨h1, h2⟩ | ⟨h1, h2⟩)
      · exact ⟨h1, h2.le, fun e => h2.ne (Prod.ext_iff.1 e).2⟩
      · exact ⟨h1.le, h2, fun e => h1.ne (Prod.ext_iff.1 e).1⟩
    · rintro ⟨h1, h2, h3⟩
      by_cases e : s.lo = t.lo
      · exact .inl ⟨h1, lt_of_le_of_ne h2 fun e' => h3 (by rw [e, e'])⟩
      · exact .inr ⟨lt_of_le_of_ne h1 e, h2⟩
  · by_contra hc
    have := Seg.lt_trans h (by simpa using hc)
    rw [Seg.lt_irrefl] at this
    exact absurd this (by decide)

/-- **C108, sorting.**  The pieces of a distribution are in increasing order, and this is the only order in which they are: however they
were shuffled, sorting gives back the pieces of the distribution. -/
theorem C108_sorting [IsStrictOrderedRing K] {eps : K} (he : 0 ≤ eps) {l : PF K} (hl : PF.WF eps l) :
    l.Pairwise (fun s t => s.lt t = true) ∧ ∀ l' : PF K, l'.Perm l → l'.Pairwise (fun s t => s.lt t = true) → l' = l := by
  have hs : l.Pairwise (fun s t => s.lt t = true) :=
    hl.2.imp_of_mem fun hs ht h => Seg.LeftOf.lt he (hl.1 _ hs) (hl.1 _ ht) h
  refine ⟨hs, fun l' hp h' => hp.eq_of_pairwise (fun s t _ _ h1 h2 => ?_) h' hs⟩
  rw [(C108_order_partial s t t).2.2.2.2 h1] at h2
  exact absurd h2 (by decide)

/-- **C108, searching** (partial: distributions without atoms).  Different pieces are not `==`, and every piece is found at its own
position. -/
theorem C108_index_partial {eps : K} {l₁ l₂ : PF K} {t : Seg K} (hl : PF.WF eps (l₁ ++ t :: l₂))
    (hc : ∀ s ∈ l₁ ++ t :: l₂, s.isDirac = false) :
    (∀ s ∈ l₁ ++ l₂, s.eq t = false) ∧ PF.index (l₁ ++ t :: l₂) t = some l₁.length := by
  have hne (s u : Seg K) (hs : s ∈ l₁ ++ t :: l₂) (hu : u ∈ l₁ ++ t :: l₂) (h : s.hi ≤ u.lo) : s.eq u = false ∧ u.eq s = false := by
    have h1 : s.lo < s.hi := Seg.lo_lt_hi (hl.1 _ hs) (hc _ hs)
    have h2 : u.lo < u.hi := Seg.lo_lt_hi (hl.1 _ hu) (hc _ hu)
    have e1 := (h1.trans_le h).ne
    have e2 := (h.trans_lt h2).ne
    simp [Seg.eq, e1, e2, e1.symm, e2.symm]
  have hp := List.pairwise_append.1 hl.2
  have hL (s : Seg K) (h : s ∈ l₁) : s.eq t = false := (hne s t (by simp [h]) (by simp) (hp.2.2 s h t (by simp)).1).1
  have hR (s : Seg K) (h : s ∈ l₂) : s.eq t = false := (hne t s (by simp) (by simp [h]) ((List.pairwise_cons.1 hp.2.1).1 s h).1).2
  refine ⟨fun s hs => (List.mem_append.1 hs).elim (hL s) (hR s), ?_⟩
  unfold PF.index
  clear hl hc hne hp hR
  induction l₁ with
  | nil => simp [List.findIdx?_cons, Seg.eq]
  | cons u l₁ ih => simp [List.findIdx?_cons, hL u (by simp), ih fun s h => hL s (by simp [h])]

/-- **C108** is violated by `<=`, `>=` and `==`: no continuous piece is `<=` itself, although it is `==` itself; a piece and an atom at its
right end are `==` and at the same time `<`, and `index` returns the position of the piece when asked for the atom. -/
theorem C108_violated_equality [IsStrictOrderedRing K] {eps : K} (he : 0 ≤ eps) :
    (∀ s : Seg K, s.WF → s.isDirac = false → s.eq s = true ∧ s.le s = false ∧ s.ge s = false) ∧
    ∀ (l₁ l₂ : PF K) (s : Seg K) (a m : K), PF.WF eps (l₁ ++ s :: .dirac a m :: l₂) → s.hi = .fin a →
      s.eq (.dirac a m) = true ∧ s.lt (.dirac a m) = true ∧ ∃ i ≤ l₁.length, PF.index (l₁ ++ s :: .dirac a m :: l₂) (.dirac a m) = some i := by
  refine ⟨fun s hw hd => ?_, fun l₁ l₂ s a m hl ha => ?_⟩
  · have h : s.lo < s.hi := Seg.lo_lt_hi hw hd
    exact ⟨by simp [Seg.eq], decide_eq_false (not_le.2 h), decide_eq_false (not_le.2 h)⟩
  · have e : s.eq (.dirac a m) = true := by
      rw [Seg.eq, ha]
      exact Bool.or_eq_true_iff.2 (.inr (decide_eq_true rfl))
    have hp := (C108_sorting he hl).1
    rw [List.pairwise_append] at hp
    refine ⟨e, (List.pairwise_cons.1 hp.2.1).1 _ (by simp), ?_⟩
    unfold PF.index
    clear hl hp
    induction l₁ with
    | nil => exact ⟨0, le_rfl, by simp [List.findIdx?_cons, e]⟩
    | cons t l₁ ih =>
      obtain ⟨i, h1, h2⟩ := ih
      rw [List.cons_append, List.findIdx?_cons, h2]
      split_ifs
      · exact ⟨0, by simp, rfl⟩
      · exact ⟨i + 1, by simpa using h1, rfl⟩

/-- **C108**: `==` is not transitive -/
theorem C108_violated_transitive : ∃ s t u : Seg ℚ, s.eq t = true ∧ t.eq u = true ∧ s.eq u = false :=
  ⟨.const 0 1 1, .const 0 2 1, .const 1 2 1, by decide +kernel, by decide +kernel, by decide +kernel⟩

/-! ### non-vacuity -/

/-- a fair mixture of the uniform distribution on `[0, 1]` and the value 1: sorted, and `index` does not find the atom -/
example : PF.WF (0 : ℚ) [.const 0 1 (1 / 2), .dirac 1 (1 / 2)] ∧
    PF.index [.const 0 1 (1 / 2), .dirac 1 (1 / 2 : ℚ)] (.dirac 1 (1 / 2)) = some 0 := by
  have hw : PF.WF (0 : ℚ) [.const 0 1 (1 / 2), .dirac 1 (1 / 2)] := by
    refine ⟨?_, ?_⟩
    · intro s hs
      simp only [List.mem_cons, List.not_mem_nil, or_false] at hs
      rcases hs with rfl | rfl
      · show (0 : ℚ) < 1; norm_num
      · trivial
    · refine List.pairwise_pair.2 ⟨le_rfl, ?_⟩
      intro a m a' m' h
      simp at h
  refine ⟨hw, ?_⟩
  obtain ⟨i, h1, h2⟩ := ((C108_violated_equality le_rfl).2 [] [] _ _ _ hw rfl).2.2
  rw [List.length_nil, Nat.le_zero] at h1
  exact h1 ▸ h2

/-- the second of two steps is found -/
example : PF.index [.const 0 1 (1 / 2), .const 1 2 (1 / 2 : ℚ)] (.const 1 2 (1 / 2)) = some 1 := by
  refine (C108_index_partial (eps := 0) (l₁ := [.const 0 1 (1 / 2)]) (l₂ := []) ⟨?_, ?_⟩ ?_).2
  · intro s hs
    simp only [List.cons_append, List.nil_append, List.mem_cons, List.not_mem_nil, or_false] at hs
    rcases hs with rfl | rfl
    · show (0 : ℚ) < 1; norm_num
    · show (1 : ℚ) < 2; norm_num
  · refine List.pairwise_pair.2 ⟨le_rfl, ?_⟩
    intro a m a' m' h
    simp at h
  · simp [Seg.isDirac]

end Pacal
