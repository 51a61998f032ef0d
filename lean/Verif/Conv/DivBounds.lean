import Verif.Conv.DivSpec

/-! Quotients of points and quotients of ends of pieces. -/

namespace Pacal
namespace Conv
open Set

theorem neg_div_neg_eq' (a b : EReal) : -a / -b = a / b := by
  rw [EReal.div_eq_inv_mul, EReal.div_eq_inv_mul, EReal.inv_neg, neg_mul_neg]

theorem neg_div_eq (a b : EReal) : -a / b = -(a / b) := by
  rw [EReal.div_eq_inv_mul, EReal.div_eq_inv_mul, mul_neg]

theorem neg_nonpos' {a : EReal} : -a ≤ 0 ↔ 0 ≤ a := by
  rw [EReal.neg_le, neg_zero]

/-- a quotient of ends above the quotient of two points; none if the denominator reaches 0 -/
def Above (a b c d : EReal) (v : ℝ) : Prop :=
  ∃ e ∈ [a, b], ∃ f ∈ [c, d], f ≠ 0 ∧ ¬ (isInf e ∧ isInf f) ∧ (v : EReal) < e / f

/-- a quotient of ends below the quotient of two points -/
def Below (a b c d : EReal) (v : ℝ) : Prop :=
  ∃ e ∈ [a, b], ∃ f ∈ [c, d], f ≠ 0 ∧ ¬ (isInf e ∧ isInf f) ∧ e / f < (v : EReal)

variable {a b c d : EReal} {s t : ℝ}

theorem above_pos (h1 : a ≤ s) (h2 : (s : EReal) ≤ b) (h3 : c ≤ t) (h4 : (t : EReal) ≤ d) (ha : 0 ≤ a ∨ b ≤ 0) (hc : 0 ≤ c ∨ d ≤ 0)
    (hst : (a < s ∧ (s : EReal) < b) ∨ (c < t ∧ (t : EReal) < d)) (ht : 0 < t) (hs : s ≠ 0) :
    Above a b c d (s / t) ∨ (c = 0 ∧ 0 < s) := by
  have hc0 : 0 ≤ c := by
    rcases hc with h | h
    · exact h
    · exact absurd (EReal.coe_le_coe_iff.1 (h4.trans h)) (not_le.2 ht)
  have hcr : ∃ r : ℝ, c = r := by
    induction c using EReal.rec with
    | bot => exact absurd hc0 (by simp)
    | top => exact absurd h3 (by simp)
    | coe r => exact ⟨r, rfl⟩
  obtain ⟨r, rfl⟩ := hcr
  have hr0 : 0 ≤ r := EReal.coe_le_coe_iff.1 hc0
  have hrt : r ≤ t := EReal.coe_le_coe_iff.1 h3
  rcases lt_or_gt_of_ne hs with hs | hs
  · -- numerator negative
    left
    have hb0 : b ≤ 0 := by
      rcases ha with h | h
      · exact absurd (EReal.coe_le_coe_iff.1 (h.trans h1)) (not_le.2 hs)
      · exact h
    have hbr : ∃ r : ℝ, b = r := by
      induction b using EReal.rec with
      | bot => exact absurd h2 (by simp)
      | top => exact absurd hb0 (by simp)
      | coe r => exact ⟨r, rfl⟩
    obtain ⟨b, rfl⟩ := hbr
    have hb0 : b ≤ 0 := EReal.coe_le_coe_iff.1 hb0
    have hsb : s ≤ b := EReal.coe_le_coe_iff.1 h2
    refine ⟨(b : EReal), by simp, d, by simp, ?_, ?_, ?_⟩
    · rintro rfl; exact absurd (EReal.coe_le_coe_iff.1 h4) (not_le.2 ht)
    · rintro ⟨h | h, -⟩
      · exact EReal.coe_ne_top _ h
      · exact EReal.coe_ne_bot _ h
    · induction d using EReal.rec with
      | bot => exact absurd h4 (by simp)
      | top => rw [EReal.div_top]; exact_mod_cast div_neg_of_neg_of_pos hs ht
      | coe d =>
        have htd : t ≤ d := EReal.coe_le_coe_iff.1 h4
        rw [← EReal.coe_div, EReal.coe_lt_coe_iff, div_lt_div_iff₀ ht (ht.trans_le htd)]
        rcases hst with ⟨-, h⟩ | ⟨-, h⟩
        · have : s < b := EReal.coe_lt_coe_iff.1 h
          nlinarith
        · have : t < d := EReal.coe_lt_coe_iff.1 h
          nlinarith
  · rcases hr0.eq_or_lt with hr | hr
    · exact .inr ⟨by rw [← hr]; rfl, hs⟩
    · left
      refine ⟨b, by simp, (r : EReal), by simp, ?_, ?_, ?_⟩
      · exact_mod_cast hr.ne'
      · rintro ⟨-, h | h⟩
        · exact EReal.coe_ne_top _ h
        · exact EReal.coe_ne_bot _ h
      · induction b using EReal.rec with
        | bot => exact absurd h2 (by simp)
        | top => rw [EReal.top_div_of_pos_ne_top (EReal.coe_pos.2 hr) (EReal.coe_ne_top _)]; exact EReal.coe_lt_top _
        | coe b =>
          have hsb : s ≤ b := EReal.coe_le_coe_iff.1 h2
          rw [← EReal.coe_div, EReal.coe_lt_coe_iff, div_lt_div_iff₀ ht hr]
          rcases hst with ⟨-, h⟩ | ⟨h, -⟩
          · have : s < b := EReal.coe_lt_coe_iff.1 h
            nlinarith
          · have : r < t := EReal.coe_lt_coe_iff.1 h
            nlinarith

theorem isInf_neg {e : EReal} : isInf (-e) ↔ isInf e := by
  unfold isInf
  rw [EReal.neg_eq_top_iff, EReal.neg_eq_bot_iff, or_comm]

theorem above (h1 : a ≤ s) (h2 : (s : EReal) ≤ b) (h3 : c ≤ t) (h4 : (t : EReal) ≤ d) (ha : 0 ≤ a ∨ b ≤ 0) (hc : 0 ≤ c ∨ d ≤ 0)
    (hst : (a < s ∧ (s : EReal) < b) ∨ (c < t ∧ (t : EReal) < d)) (ht : t ≠ 0) (hs : s ≠ 0) :
    Above a b c d (s / t) ∨ (c = 0 ∧ 0 < s ∧ 0 < t) ∨ (d = 0 ∧ s < 0 ∧ t < 0) := by
  rcases lt_or_gt_of_ne ht with ht | ht
  · have := above_pos (a := -b) (b := -a) (c := -d) (d := -c) (s := -s) (t := -t)
      (by rw [EReal.coe_neg]; exact EReal.neg_le_neg_iff.2 h2) (by rw [EReal.coe_neg]; exact EReal.neg_le_neg_iff.2 h1)
      (by rw [EReal.coe_neg]; exact EReal.neg_le_neg_iff.2 h4) (by rw [EReal.coe_neg]; exact EReal.neg_le_neg_iff.2 h3)
      (by rw [EReal.neg_nonneg, neg_nonpos']; exact ha.symm) (by rw [EReal.neg_nonneg, neg_nonpos']; exact hc.symm)
      (by simp only [EReal.coe_neg, EReal.neg_lt_neg_iff]; tauto) (neg_pos.2 ht) (neg_ne_zero.2 hs)
    rw [neg_div_neg_eq] at this
    rcases this with ⟨e, he, f, hf, k1, k2, k3⟩ | ⟨k1, k2⟩
    · refine .inl ⟨-e, ?_, -f, ?_, by rwa [Ne, EReal.neg_eq_zero_iff], by rwa [isInf_neg, isInf_neg], by rwa [neg_div_neg_eq']⟩
      · simp only [List.mem_cons, List.not_mem_nil, or_false] at he ⊢
        rcases he with rfl | rfl <;> simp
      · simp only [List.mem_cons, List.not_mem_nil, or_false] at hf ⊢
        rcases hf with rfl | rfl <;> simp
    · exact .inr (.inr ⟨EReal.neg_eq_zero_iff.1 k1, neg_pos.1 k2, ht⟩)
  · rcases above_pos h1 h2 h3 h4 ha hc hst ht hs with h | ⟨h, h'⟩
    · exact .inl h
    · exact .inr (.inl ⟨h, h', ht⟩)

theorem below (h1 : a ≤ s) (h2 : (s : EReal) ≤ b) (h3 : c ≤ t) (h4 : (t : EReal) ≤ d) (ha : 0 ≤ a ∨ b ≤ 0) (hc : 0 ≤ c ∨ d ≤ 0)
    (hst : (a < s ∧ (s : EReal) < b) ∨ (c < t ∧ (t : EReal) < d)) (ht : t ≠ 0) (hs : s ≠ 0) :
    Below a b c d (s / t) ∨ (c = 0 ∧ s < 0 ∧ 0 < t) ∨ (d = 0 ∧ 0 < s ∧ t < 0) := by
  have := above (a := -b) (b := -a) (s := -s) (t := t)
      (by rw [EReal.coe_neg]; exact EReal.neg_le_neg_iff.2 h2) (by rw [EReal.coe_neg]; exact EReal.neg_le_neg_iff.2 h1)
      h3 h4 (by rw [EReal.neg_nonneg, neg_nonpos']; exact ha.symm) hc
      (by simp only [EReal.coe_neg, EReal.neg_lt_neg_iff]; tauto) ht (neg_ne_zero.2 hs)
  rw [neg_div] at this
  rcases this with ⟨e, he, f, hf, k1, k2, k3⟩ | ⟨k1, k2, k3⟩ | ⟨k1, k2, k3⟩
  · refine .inl ⟨-e, ?_, f, hf, k1, by rwa [isInf_neg], ?_⟩
    · simp only [List.mem_cons, List.not_mem_nil, or_false] at he ⊢
      rcases he with rfl | rfl <;> simp
    · rw [neg_div_eq]
      exact EReal.neg_lt_comm.1 (by rwa [EReal.coe_neg] at k3)
  · exact .inr (.inl ⟨k1, neg_pos.1 k2, k3⟩)
  · exact .inr (.inr ⟨k1, neg_lt_zero.1 k2, k3⟩)

/-- the comparison of `x e` and `i` does not change with `x` unless the quotient `i / e` or 0 is crossed -/
theorem cmp_same {x z : ℝ} (hs : (0 < x ∧ 0 < z) ∨ (x < 0 ∧ z < 0)) (e i : EReal)
    (hth : ∀ p q : ℝ, i = p → e = q → q ≠ 0 → ((p / q < x ↔ p / q < z) ∧ (x < p / q ↔ z < p / q))) :
    ((x * e < i) ↔ z * e < i) ∧ ((i < x * e) ↔ i < z * e) := by
  induction e using EReal.rec with
  | bot =>
    rcases hs with ⟨h1, h2⟩ | ⟨h1, h2⟩
    · rw [EReal.coe_mul_bot_of_pos h1, EReal.coe_mul_bot_of_pos h2]; simp
    · rw [EReal.coe_mul_bot_of_neg h1, EReal.coe_mul_bot_of_neg h2]; simp
  | top =>
    rcases hs with ⟨h1, h2⟩ | ⟨h1, h2⟩
    · rw [EReal.coe_mul_top_of_pos h1, EReal.coe_mul_top_of_pos h2]; simp
    · rw [EReal.coe_mul_top_of_neg h1, EReal.coe_mul_top_of_neg h2]; simp
  | coe q =>
    by_cases hq : q = 0
    · subst hq; simp
    · rw [← EReal.coe_mul, ← EReal.coe_mul]
      induction i using EReal.rec with
      | bot => exact ⟨by simp, iff_of_true (EReal.bot_lt_coe _) (EReal.bot_lt_coe _)⟩
      | top => exact ⟨iff_of_true (EReal.coe_lt_top _) (EReal.coe_lt_top _), by simp⟩
      | coe p =>
        obtain ⟨h1, h2⟩ := hth p q rfl rfl hq
        rw [EReal.coe_lt_coe_iff, EReal.coe_lt_coe_iff, EReal.coe_lt_coe_iff, EReal.coe_lt_coe_iff]
        rcases lt_or_gt_of_ne hq with hq | hq
        · rw [div_lt_iff_of_neg hq, div_lt_iff_of_neg hq] at h1
          rw [lt_div_iff_of_neg hq, lt_div_iff_of_neg hq] at h2
          exact ⟨h1, h2⟩
        · rw [div_lt_iff₀ hq, div_lt_iff₀ hq] at h1
          rw [lt_div_iff₀ hq, lt_div_iff₀ hq] at h2
          exact ⟨h2, h1⟩

/-- points with the quotient `x` in a pair found for `x` -/
theorem testDiv_points {x : ℝ} (hx : x ≠ 0) {si sj : Seg ℝ} (hi' : si.WF) (hj : sj.WF) (oi : OneSide si) (oj : OneSide sj)
    (h : TestDiv x si sj) : ∃ t ∈ sj.points, x * t ∈ si.points ∧ t ≠ 0 ∧ (si.isDirac = false ∨ sj.isDirac = false) := by
  have hpt : ∀ {u : Seg ℝ}, u.isDirac = false → u.points = u.inner := by
    intro u hu; cases u <;> first | rfl | simp [Seg.isDirac] at hu
  have h0 : ∀ {u : Seg ℝ} {r : ℝ}, OneSide u → r ∈ u.inner → r ≠ 0 := by
    rintro u r hu hr rfl
    rw [mem_inner] at hr
    rcases hu with hu | hu
    · exact absurd hr.1 (not_lt.2 hu)
    · exact absurd hr.2 (not_lt.2 hu)
  rcases isDirac_cases si with hsi | ⟨a, m, rfl⟩
  · rcases isDirac_cases sj with hsj | ⟨b, n, rfl⟩
    · obtain ⟨t, h1, h2⟩ := (testDiv_cont hx hsi hsj hi' hj).1 h
      exact ⟨t, by rwa [hpt hsj], by rwa [hpt hsi], h0 oj h1, .inl hsi⟩
    · have := (testDiv_right hx).1 h
      exact ⟨b, rfl, by rwa [hpt hsi], fun e => h0 oi this (by rw [e, mul_zero]), .inl hsi⟩
  · rcases isDirac_cases sj with hsj | ⟨b, n, rfl⟩
    · have := (testDiv_left hx hj).1 h
      exact ⟨a / x, by rwa [hpt hsj], by show x * (a / x) = a; field_simp, h0 oj this, .inr hsj⟩
    · have := mem_inner.1 ((testDiv_right hx).1 h)
      exact absurd (this.1.trans this.2) (lt_irrefl _)

end Conv
end Pacal
