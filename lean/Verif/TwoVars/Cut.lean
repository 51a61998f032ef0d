import Verif.TwoVars.Spec

/-! `getUL` finds the part of the curve inside a box. -/

namespace Pacal
namespace TwoVars
open Transform Conv

theorem ends_mono {α : Type*} [LinearOrder α] {a b A B L U x : α} (hab : a < b) (hAB : A < B)
    (hL : L = if A < a ∧ a < B then a else min (max A a) (min B b))
    (hU : U = if A < b ∧ b < B then b else max (max A a) (min B b)) :
    (min (min b (max L U)) (max a (min L U)) < x ∧ x < max (min b (max L U)) (max a (min L U))) ↔
      (a < x ∧ x < b ∧ A < x ∧ x < B) := by
  subst hL hU
  rcases lt_or_ge A a with h1 | h1 <;> rcases lt_or_ge B b with h2 | h2 <;> grind (splits := 30)

theorem ends_anti {α : Type*} [LinearOrder α] {a b A B L U x : α} (hab : a < b) (hAB : B < A)
    (hL : L = if a < A ∧ B < a then a else min (max A a) (min B b))
    (hU : U = if b < A ∧ B < b then b else max (max A a) (min B b)) :
    (min (min b (max L U)) (max a (min L U)) < x ∧ x < max (min b (max L U)) (max a (min L U))) ↔
      (a < x ∧ x < b ∧ B < x ∧ x < A) := by
  subst hL hU
  grind

theorem swap_eq {α : Type*} [LinearOrder α] (L U : α) [Decidable (L < U)] :
    (if L < U then (L, U) else (U, L)) = (min L U, max L U) := by
  split_ifs with h
  · rw [min_eq_left h.le, max_eq_right h.le]
  · rw [min_eq_right (not_lt.1 h), max_eq_left (not_lt.1 h)]

theorem getUL_eq {S : Sym} {a b c d A B C D : EReal} {z : ℝ} (hA : S.cutX c z = .ok (some A)) (hB : S.cutX d z = .ok (some B))
    (hC : S.cutY a z = some C) (hD : S.cutY b z = some D) [Decidable (c < C ∧ C < d)] [Decidable (c < D ∧ D < d)] {L U : EReal}
    (hL : L = if c < C ∧ C < d then a else min (max A a) (min B b))
    (hU : U = if c < D ∧ D < d then b else max (max A a) (min B b)) :
    getUL S a b c d z = .ok (max a (min L U), min b (max L U)) := by
  subst hL hU
  unfold getUL
  rw [hA, hB, hC, hD]
  simp only [Bind.bind, Except.bind, inside, maxN, minN]
  by_cases h1 : c < C ∧ C < d <;> by_cases h2 : c < D ∧ D < d
  all_goals
    simp only [h1, h2, decide_true, decide_false, if_true, if_false, Bool.false_eq_true, and_self]
    rw [swap_eq]

theorem getUL_ok {S : Sym} {a b c d : EReal} {z : ℝ} (h : Cuts S a b c d z) (hab : a < b) (hcd : c < d) :
    ∃ L U, getUL S a b c d z = .ok (L, U) ∧ a ≤ L ∧ U ≤ b ∧ ∀ x : ℝ, (min U L < x ∧ (x : EReal) < max U L) ↔
      ((a < x ∧ (x : EReal) < b) ∧ c < (S.along x z : EReal) ∧ (S.along x z : EReal) < d) := by
  classical
  obtain ⟨φ, T, A, B, hm, ⟨ha, hb, hA, hB, hx⟩, ⟨hA', hAc⟩, ⟨hB', hBd⟩, hC, hD⟩ := h
  obtain ⟨L, hL⟩ : ∃ L, L = if c < φ a ∧ φ a < d then a else min (max A a) (min B b) := ⟨_, rfl⟩
  obtain ⟨U, hU⟩ : ∃ U, U = if c < φ b ∧ φ b < d then b else max (max A a) (min B b) := ⟨_, rfl⟩
  refine ⟨max a (min L U), min b (max L U), getUL_eq hA' hB' hC hD hL hU, le_max_left _ _, min_le_left _ _, fun x => ?_⟩
  have key : ((a < x ∧ (x : EReal) < b) ∧ c < (S.along x z : EReal) ∧ (S.along x z : EReal) < d ↔
      (a < x ∧ (x : EReal) < b) ∧ c < φ x ∧ φ x < d) := by
    constructor
    · rintro ⟨h1, h2⟩; rw [(hx x h1.1 h1.2).2]; exact ⟨h1, h2⟩
    · rintro ⟨h1, h2⟩; rw [(hx x h1.1 h1.2).2] at h2; exact ⟨h1, h2⟩
  rw [key]
  rcases hm with hm | hm
  · have hAB : A < B := by rw [← hm.lt_iff_lt hA hB, hAc, hBd]; exact hcd
    simp only [← hAc, ← hBd, hm.lt_iff_lt hA ha, hm.lt_iff_lt ha hB] at hL
    simp only [← hAc, ← hBd, hm.lt_iff_lt hA hb, hm.lt_iff_lt hb hB] at hU
    rw [ends_mono hab hAB hL hU]
    constructor
    · rintro ⟨h1, h2, h3, h4⟩
      rw [← hAc, ← hBd, hm.lt_iff_lt hA (hx x h1 h2).1, hm.lt_iff_lt (hx x h1 h2).1 hB]
      exact ⟨⟨h1, h2⟩, h3, h4⟩
    · rintro ⟨⟨h1, h2⟩, h3⟩
      rw [← hAc, ← hBd, hm.lt_iff_lt hA (hx x h1 h2).1, hm.lt_iff_lt (hx x h1 h2).1 hB] at h3
      exact ⟨h1, h2, h3⟩
  · have hAB : B < A := by rw [← hm.lt_iff_gt hA hB, hAc, hBd]; exact hcd
    simp only [← hAc, ← hBd, hm.lt_iff_gt hA ha, hm.lt_iff_gt ha hB] at hL
    simp only [← hAc, ← hBd, hm.lt_iff_gt hA hb, hm.lt_iff_gt hb hB] at hU
    rw [ends_anti hab hAB hL hU]
    constructor
    · rintro ⟨h1, h2, h3, h4⟩
      rw [← hAc, ← hBd, hm.lt_iff_gt hA (hx x h1 h2).1, hm.lt_iff_gt (hx x h1 h2).1 hB]
      exact ⟨⟨h1, h2⟩, h4, h3⟩
    · rintro ⟨⟨h1, h2⟩, h3⟩
      rw [← hAc, ← hBd, hm.lt_iff_gt hA (hx x h1 h2).1, hm.lt_iff_gt (hx x h1 h2).1 hB] at h3
      exact ⟨h1, h2, h3.2, h3.1⟩

end TwoVars
end Pacal
