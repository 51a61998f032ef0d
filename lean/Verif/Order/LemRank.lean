import Verif.Order.Spec
import Mathlib.Data.Finset.Sigma
import Mathlib.Data.Finset.Powerset
import Mathlib.Algebra.BigOperators.Group.Finset.Sigma
import Mathlib.Data.Finset.Prod
import Mathlib.Tactic.Linarith

/-! Ranks of a sample without ties: the positions of the i-th and j-th order statistic and the sets of
positions below, between and above. -/

namespace Pacal
namespace Order

open Finset

theorem IsKth.le_iff {n : ℕ} {x : Fin n → ℝ} {k : ℕ} {v : ℝ} (h : IsKth x k v) (t : ℝ) :
    v ≤ t ↔ k ≤ (univ.filter fun m => x m ≤ t).card := by
  obtain ⟨-, h₁, h₂⟩ := h
  constructor
  · intro hv
    refine h₂.trans (card_le_card ?_)
    intro m hm
    simp only [mem_filter, mem_univ, true_and] at hm ⊢
    exact hm.trans hv
  · intro hk
    by_contra hv
    push Not at hv
    have : (univ.filter fun m => x m ≤ t).card ≤ (univ.filter fun m => x m < v).card := by
      apply card_le_card
      intro m hm
      simp only [mem_filter, mem_univ, true_and] at hm ⊢
      exact hm.trans_lt hv
    omega

theorem IsKth.unique {n : ℕ} {x : Fin n → ℝ} {k : ℕ} {u v : ℝ} (h : IsKth x k u) (h' : IsKth x k v) :
    u = v :=
  le_antisymm ((h.le_iff v).2 h'.2.2) ((h'.le_iff u).2 h.2.2)

/-- positions `a`, `b` of the two order statistics, the positions `A` below and `B` between -/
abbrev Arr (n : ℕ) := Σ _ : Fin n × Fin n, Σ _ : Finset (Fin n), Finset (Fin n)

/-- the possible arrangements for ranks `p + 1` and `p + q + 2` -/
def arrs (n p q : ℕ) : Finset (Arr n) :=
  (univ : Finset (Fin n)).offDiag.sigma fun ab =>
    (powersetCard p (univ \ {ab.1, ab.2})).sigma fun A => powersetCard q ((univ \ {ab.1, ab.2}) \ A)

theorem mem_arrs {n p q : ℕ} {a b : Fin n} {A B : Finset (Fin n)} :
    (⟨(a, b), A, B⟩ : Arr n) ∈ arrs n p q ↔ a ≠ b ∧ a ∉ A ∧ b ∉ A ∧ A.card = p ∧ a ∉ B ∧ b ∉ B ∧
      Disjoint B A ∧ B.card = q := by
  simp only [arrs, mem_sigma, mem_offDiag, mem_univ, true_and, mem_powersetCard, subset_iff, mem_sdiff,
    mem_insert, mem_singleton, not_or]
  constructor
  · rintro ⟨h, ⟨hA, hp⟩, hB, hq⟩
    refine ⟨h, fun ha => (hA ha).1 rfl, fun ha => (hA ha).2 rfl, hp, fun ha => (hB ha).1.1 rfl,
      fun ha => (hB ha).1.2 rfl, ?_, hq⟩
    exact Finset.disjoint_left.2 fun k hk => (hB hk).2
  · rintro ⟨h, h1, h2, hp, h3, h4, hd, hq⟩
    refine ⟨h, ⟨fun k hk => ⟨?_, ?_⟩, hp⟩, fun k hk => ⟨⟨?_, ?_⟩, ?_⟩, hq⟩
    · rintro rfl; exact h1 hk
    · rintro rfl; exact h2 hk
    · rintro rfl; exact h3 hk
    · rintro rfl; exact h4 hk
    · exact Finset.disjoint_left.1 hd hk

theorem card_arrs (n p q : ℕ) : (arrs n p q).card =
    n * (n - 1) * ((n - 2).choose p * (n - 2 - p).choose q) := by
  rw [arrs, card_sigma]
  have h1 : ∀ ab ∈ (univ : Finset (Fin n)).offDiag,
      ((powersetCard p (univ \ {ab.1, ab.2})).sigma
        fun A => powersetCard q ((univ \ {ab.1, ab.2}) \ A)).card =
      (n - 2).choose p * (n - 2 - p).choose q := by
    intro ab hab
    have hc : ((univ : Finset (Fin n)) \ {ab.1, ab.2}).card = n - 2 := by
      rw [card_sdiff_of_subset (subset_univ _), card_univ, Fintype.card_fin,
        card_pair (mem_offDiag.1 hab).2.2]
    rw [card_sigma]
    have h2 : ∀ A ∈ powersetCard p ((univ : Finset (Fin n)) \ {ab.1, ab.2}),
        (powersetCard q ((univ \ {ab.1, ab.2}) \ A)).card = (n - 2 - p).choose q := by
      intro A hA
      obtain ⟨hA, hp⟩ := mem_powersetCard.1 hA
      rw [card_powersetCard, card_sdiff_of_subset hA, hc, hp]
    rw [sum_congr rfl h2, sum_const, card_powersetCard, hc, smul_eq_mul]
  rw [sum_congr rfl h1, sum_const, offDiag_card, card_univ, Fintype.card_fin, smul_eq_mul,
    Nat.mul_sub, mul_one]

/-- the sample is arranged as described by the arrangement -/
def Fits {n : ℕ} (x : Fin n → ℝ) (r : Arr n) : Prop :=
  x r.1.1 < x r.1.2 ∧ ∀ k, k ≠ r.1.1 → k ≠ r.1.2 →
    if k ∈ r.2.1 then x k < x r.1.1 else if k ∈ r.2.2 then x r.1.1 < x k ∧ x k < x r.1.2 else x r.1.2 < x k

theorem fits_below {n p q : ℕ} {x : Fin n → ℝ} {a b : Fin n} {A B : Finset (Fin n)}
    (hr : (⟨(a, b), A, B⟩ : Arr n) ∈ arrs n p q) (h : Fits x ⟨(a, b), A, B⟩) :
    (univ.filter fun m => x m < x a) = A := by
  obtain ⟨hab, h1, h2, hp, h3, h4, hd, hq⟩ := mem_arrs.1 hr
  obtain ⟨hlt, hk⟩ := h
  dsimp only at hlt hk
  ext m
  simp only [mem_filter, mem_univ, true_and]
  rcases eq_or_ne m a with rfl | ha
  · simp [h1]
  rcases eq_or_ne m b with rfl | hb
  · simp [h2, hlt.le]
  have := hk m ha hb
  split_ifs at this with c1 c2
  · simp [c1, this]
  · simp [c1, this.1.le]
  · simp only [c1, iff_false, not_lt]; linarith

theorem fits_below' {n p q : ℕ} {x : Fin n → ℝ} {a b : Fin n} {A B : Finset (Fin n)}
    (hr : (⟨(a, b), A, B⟩ : Arr n) ∈ arrs n p q) (h : Fits x ⟨(a, b), A, B⟩) :
    (univ.filter fun m => x m < x b) = insert a (A ∪ B) := by
  obtain ⟨hab, h1, h2, hp, h3, h4, hd, hq⟩ := mem_arrs.1 hr
  obtain ⟨hlt, hk⟩ := h
  dsimp only at hlt hk
  ext m
  simp only [mem_filter, mem_univ, true_and, mem_insert, mem_union]
  rcases eq_or_ne m a with rfl | ha
  · simp [hlt]
  rcases eq_or_ne m b with rfl | hb
  · simp [h2, h4, ha]
  have := hk m ha hb
  split_ifs at this with c1 c2
  · simp only [c1, true_or, or_true, iff_true]; linarith
  · simp [c2, this.2]
  · simp [c1, c2, ha, this.le]

theorem card_below' {n p q : ℕ} {x : Fin n → ℝ} {a b : Fin n} {A B : Finset (Fin n)}
    (hr : (⟨(a, b), A, B⟩ : Arr n) ∈ arrs n p q) (h : Fits x ⟨(a, b), A, B⟩) :
    (univ.filter fun m => x m < x b).card = p + q + 1 := by
  rw [fits_below' hr h]
  obtain ⟨hab, h1, h2, hp, h3, h4, hd, hq⟩ := mem_arrs.1 hr
  rw [card_insert_of_notMem (by simp [h1, h3]), card_union_of_disjoint hd.symm, hp, hq]

theorem isKth_of_card {n : ℕ} {x : Fin n → ℝ} {k : ℕ} {a : Fin n}
    (h : (univ.filter fun m => x m < x a).card = k) : IsKth x (k + 1) (x a) := by
  refine ⟨⟨a, rfl⟩, by omega, ?_⟩
  rw [← h, ← card_insert_of_notMem (s := univ.filter fun m => x m < x a) (a := a) (by simp)]
  apply card_le_card
  intro m hm
  simp only [mem_insert, mem_filter, mem_univ, true_and] at hm ⊢
  rcases hm with rfl | hm
  · exact le_rfl
  · exact hm.le

theorem card_of_isKth {n : ℕ} {x : Fin n → ℝ} (hx : Function.Injective x) {k : ℕ} {a : Fin n}
    (h : IsKth x (k + 1) (x a)) : (univ.filter fun m => x m < x a).card = k := by
  have e : (univ.filter fun m => x m ≤ x a) = insert a (univ.filter fun m => x m < x a) := by
    ext m
    simp only [mem_insert, mem_filter, mem_univ, true_and]
    rw [le_iff_eq_or_lt]
    constructor
    · rintro (e | e)
      · exact .inl (hx e)
      · exact .inr e
    · rintro (rfl | e)
      · exact .inl rfl
      · exact .inr e
  have h1 := h.2.1
  have h2 := h.2.2
  rw [e, card_insert_of_notMem (by simp)] at h2
  omega

theorem fits_isKth {n p q : ℕ} {x : Fin n → ℝ} {r : Arr n} (hr : r ∈ arrs n p q) (h : Fits x r) :
    IsKth x (p + 1) (x r.1.1) ∧ IsKth x (p + q + 2) (x r.1.2) := by
  obtain ⟨⟨a, b⟩, A, B⟩ := r
  refine ⟨isKth_of_card ?_, isKth_of_card (card_below' hr h)⟩
  rw [fits_below hr h, (mem_arrs.1 hr).2.2.2.1]

theorem fits_eq {n : ℕ} {x : Fin n → ℝ} {r : Arr n} (h : Fits x r) (k : Fin n) (hk : x k = x r.1.1) :
    k = r.1.1 := by
  by_contra ha
  by_cases hb : k = r.1.2
  · subst hb; exact absurd hk h.1.ne'
  have := h.2 k ha hb
  have := h.1
  split_ifs at * <;> linarith

theorem fits_eq' {n : ℕ} {x : Fin n → ℝ} {r : Arr n} (h : Fits x r) (k : Fin n) (hk : x k = x r.1.2) :
    k = r.1.2 := by
  by_contra hb
  by_cases ha : k = r.1.1
  · subst ha; exact absurd hk h.1.ne
  have := h.2 k ha hb
  have := h.1
  split_ifs at * <;> linarith

theorem fits_unique {n p q : ℕ} {x : Fin n → ℝ} {r r' : Arr n} (hr : r ∈ arrs n p q) (h : Fits x r)
    (hr' : r' ∈ arrs n p q) (h' : Fits x r') : r = r' := by
  have ea := fits_eq h' r.1.1 ((fits_isKth hr h).1.unique (fits_isKth hr' h').1)
  have eb := fits_eq' h' r.1.2 ((fits_isKth hr h).2.unique (fits_isKth hr' h').2)
  obtain ⟨⟨a, b⟩, A, B⟩ := r
  obtain ⟨⟨a', b'⟩, A', B'⟩ := r'
  dsimp only at ea eb
  subst ea eb
  have eA : A = A' := (fits_below hr h).symm.trans (fits_below hr' h')
  subst eA
  have eB : insert a (A ∪ B) = insert a (A ∪ B') := (fits_below' hr h).symm.trans (fits_below' hr' h')
  have e : B = B' := by
    obtain ⟨_, h1, h2, hp, h3, h4, hd, hq⟩ := mem_arrs.1 hr
    obtain ⟨_, g1, g2, gp, g3, g4, gd, gq⟩ := mem_arrs.1 hr'
    ext m
    have := congrArg (m ∈ ·) eB
    simp only [mem_insert, mem_union, eq_iff_iff] at this
    constructor
    · intro hm
      rcases this.1 (.inr (.inr hm)) with rfl | c | c
      · exact absurd hm h3
      · exact absurd c (Finset.disjoint_left.1 hd hm)
      · exact c
    · intro hm
      rcases this.2 (.inr (.inr hm)) with rfl | c | c
      · exact absurd hm g3
      · exact absurd c (Finset.disjoint_left.1 gd hm)
      · exact c
  subst e
  rfl

theorem fits_exists {n p q : ℕ} {x : Fin n → ℝ} (hx : Function.Injective x) {u v : ℝ}
    (hu : IsKth x (p + 1) u) (hv : IsKth x (p + q + 2) v) :
    ∃ r ∈ arrs n p q, Fits x r ∧ x r.1.1 = u ∧ x r.1.2 = v := by
  obtain ⟨a, rfl⟩ := hu.1
  obtain ⟨b, rfl⟩ := hv.1
  have ca := card_of_isKth hx hu
  have cb := card_of_isKth (k := p + q + 1) hx hv
  have hab : x a < x b := by
    by_contra hc
    push Not at hc
    have : (univ.filter fun m => x m < x b).card ≤ (univ.filter fun m => x m < x a).card := by
      apply card_le_card
      intro m hm
      simp only [mem_filter, mem_univ, true_and] at hm ⊢
      exact hm.trans_le hc
    omega
  set A := univ.filter fun m => x m < x a with hA
  set B := univ.filter fun m => x a < x m ∧ x m < x b with hB
  have hd : Disjoint B A := by
    rw [Finset.disjoint_left]
    intro m h1 h2
    simp only [hA, hB, mem_filter, mem_univ, true_and] at h1 h2
    linarith [h1.1]
  have e : (univ.filter fun m => x m < x b) = insert a (A ∪ B) := by
    ext m
    simp only [hA, hB, mem_filter, mem_univ, true_and, mem_insert, mem_union]
    constructor
    · intro hm
      rcases lt_trichotomy (x m) (x a) with c | c | c
      · exact .inr (.inl c)
      · exact .inl (hx c)
      · exact .inr (.inr ⟨c, hm⟩)
    · rintro (rfl | c | c)
      · exact hab
      · exact c.trans hab
      · exact c.2
  have haA : a ∉ A := by simp [hA]
  have haB : a ∉ B := by simp [hB]
  have hbA : b ∉ A := by simp [hA, hab.le]
  have hbB : b ∉ B := by simp [hB]
  have hcB : B.card = q := by
    rw [e, card_insert_of_notMem (by simp [haA, haB]), card_union_of_disjoint hd.symm, ca] at cb
    omega
  refine ⟨⟨(a, b), A, B⟩, mem_arrs.2 ⟨?_, haA, hbA, ca, haB, hbB, hd, hcB⟩, ⟨hab, ?_⟩, rfl, rfl⟩
  · rintro rfl; exact lt_irrefl _ hab
  · intro k hka hkb
    dsimp only at hka hkb ⊢
    split_ifs with c1 c2
    · simpa [hA] using c1
    · simpa [hB] using c2
    · have n1 : x a < x k := by
        simp only [hA, mem_filter, mem_univ, true_and, not_lt] at c1
        exact lt_of_le_of_ne c1 fun e => hka (hx e.symm)
      simp only [hB, mem_filter, mem_univ, true_and, not_and, not_lt] at c2
      exact lt_of_le_of_ne (c2 n1) fun e => hkb (hx e.symm)

end Order
end Pacal
