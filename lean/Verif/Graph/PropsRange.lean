import Verif.Graph.RangeLemmas

/-!
# Property C30: stated ranges contain every outcome

The claim is false of the code for differences, for quotients by a variable whose range has 0 inside or
at its right end, for functions of a variable (whose range is never computed), and for a shifted or scaled
leaf whose class does not set the attributes `a`, `b`; these are the `C30_violated_*` theorems.  The
positive part covers sums, products, quotients and shifting/scaling in any nesting.
-/

namespace Pacal
open Operators Range

/-- the outcome `x` lies in the range -/
def InRange (x : ℝ) (r : EReal × EReal) : Prop := r.1 ≤ x ∧ (x : EReal) ≤ r.2

/-- The full claim, for all expressions: if the outcomes of the leaves lie in their ranges, then so does
the outcome of the expression, whenever it is defined (no division by 0). -/
def C30_full : Prop :=
  ∀ (attr₀ rng : ℕ → EReal × EReal) (env : ℕ → ℝ) (e : RExpr) (r : EReal × EReal),
    (∀ i, InRange (env i) (attr₀ i) ∧ InRange (env i) (rng i)) →
    attr.meth attr₀ rng e = some r → InRange (den env e) r

/-- Expressions covered by the positive result. -/
def Covered (attr₀ rng : ℕ → EReal × EReal) (env : ℕ → ℝ) : RExpr → Prop
  | .var _ => True
  | .shiftScale d _ sc => sc ≠ 0 ∧ Covered attr₀ rng env d
  | .sum a b => Covered attr₀ rng env a ∧ Covered attr₀ rng env b
  | .mul a b => Covered attr₀ rng env a ∧ Covered attr₀ rng env b
  | .div a b => Covered attr₀ rng env a ∧ Covered attr₀ rng env b ∧ den env b ≠ 0 ∧
      ∀ r, attr.meth attr₀ rng b = some r → 0 ≤ r.1 ∨ r.2 < 0
  | _ => False

/-- **C30, partial.** Sums, products, quotients (by a variable whose range is nonnegative or strictly
negative) and shifts/scalings of any nesting depth; infinite ranges included. Missing: differences and
functions, where the code is wrong. -/
theorem C30_contains_partial (attr₀ rng : ℕ → EReal × EReal) (env : ℕ → ℝ)
    (hleaf : ∀ i, InRange (env i) (attr₀ i) ∧ InRange (env i) (rng i)) :
    ∀ (e : RExpr), Covered attr₀ rng env e →
      (∀ r, attr.meth attr₀ rng e = some r → InRange (den env e) r) ∧
      (∀ r, attr attr₀ rng e = some r → InRange (den env e) r) := by
  intro e
  induction e with
  | var i =>
    intro _
    refine ⟨fun r h => ?_, fun r h => ?_⟩
    · simp only [attr.meth] at h; cases h; exact (hleaf i).2
    · simp only [attr] at h; cases h; exact (hleaf i).1
  | shiftScale d sh sc ih =>
    intro hc
    have key : ∀ r, attr attr₀ rng (.shiftScale d sh sc) = some r →
        InRange (den env (.shiftScale d sh sc)) r := by
      intro r h
      simp only [attr, Option.map_eq_some_iff] at h
      obtain ⟨r', h', rfl⟩ := h
      have := (ih hc.2).2 r' h'
      exact shiftScale_contains this.1 this.2 sh sc
    exact ⟨fun r h => key r (by simpa only [attr.meth] using h), key⟩
  | sum a b iha ihb =>
    intro hc
    have key : ∀ r, attr attr₀ rng (.sum a b) = some r → InRange (den env (.sum a b)) r := by
      intro r h
      simp only [attr, Option.bind_eq_bind, Option.bind_eq_some_iff] at h
      obtain ⟨ra, ha, rb, hb, h⟩ := h
      cases h
      have h1 := (iha hc.1).1 ra ha
      have h2 := (ihb hc.2).1 rb hb
      exact sum_contains h1.1 h1.2 h2.1 h2.2
    exact ⟨fun r h => key r (by simpa only [attr.meth] using h), key⟩
  | mul a b iha ihb =>
    intro hc
    have key : ∀ r, attr attr₀ rng (.mul a b) = some r → InRange (den env (.mul a b)) r := by
      intro r h
      simp only [attr, Option.bind_eq_bind, Option.bind_eq_some_iff] at h
      obtain ⟨ra, ha, rb, hb, h⟩ := h
      have h1 := (iha hc.1).1 ra ha
      have h2 := (ihb hc.2).1 rb hb
      exact mul_contains h h1.1 h1.2 h2.1 h2.2
    exact ⟨fun r h => key r (by simpa only [attr.meth] using h), key⟩
  | div a b iha ihb =>
    intro hc
    obtain ⟨hca, hcb, hne, h0⟩ := hc
    have key : ∀ r, attr attr₀ rng (.div a b) = some r → InRange (den env (.div a b)) r := by
      intro r h
      simp only [attr, Option.bind_eq_bind, Option.bind_eq_some_iff] at h
      obtain ⟨ra, ha, rb, hb, h⟩ := h
      have h1 := (iha hca).1 ra ha
      have h2 := (ihb hcb).1 rb hb
      exact div_contains h h1.1 h1.2 h2.1 h2.2 hne (h0 rb hb)
    exact ⟨fun r h => key r (by simpa only [attr.meth] using h), key⟩
  | _ => intro hc; exact hc.elim

/-- A product of two ranges with different ends always has a range (it is never `nan`). -/
theorem C30_mul_defined (d₁ d₂ : EReal × EReal) (h1 : d₁.1 < d₁.2) (h2 : d₂.1 < d₂.2) :
    ∃ r, mul d₁ d₂ = some r := by
  obtain ⟨a₁, b₁⟩ := d₁
  obtain ⟨a₂, b₂⟩ := d₂
  have hspan : ∀ l : List (Option EReal), (∃ x, some x ∈ l) → ∃ r, span l = some r := by
    rintro l ⟨x, hx⟩
    have hm : x ∈ l.filterMap id := by simpa using hx
    unfold span
    split
    · next h => rw [h] at hm; simp at hm
    · exact ⟨_, rfl⟩
  apply hspan
  simp only at h1 h2
  by_contra hno
  push Not at hno
  have n : ∀ x y, some (x * y) ∉ [npMul a₁ a₂, npMul a₁ b₂, npMul b₁ a₂, npMul b₁ b₂] := fun x y => hno _
  have k : ∀ x y : EReal, npMul x y ≠ some (x * y) →
      (x = 0 ∧ (y = ⊤ ∨ y = ⊥)) ∨ (y = 0 ∧ (x = ⊤ ∨ x = ⊥)) := by
    intro x y h
    by_contra hc
    exact h (by unfold npMul; rw [if_neg hc])
  have c1 := k a₁ a₂ (fun h => n a₁ a₂ (by simp [h]))
  have c2 := k a₁ b₂ (fun h => n a₁ b₂ (by simp [h]))
  have c3 := k b₁ a₂ (fun h => n b₁ a₂ (by simp [h]))
  have c4 := k b₁ b₂ (fun h => n b₁ b₂ (by simp [h]))
  rcases c1 with ⟨e, e'⟩ | ⟨e, e'⟩
  · subst e
    rcases c3 with ⟨f, _⟩ | ⟨f, _⟩
    · subst f; exact lt_irrefl _ h1
    · subst f; rcases e' with e' | e' <;> simp at e'
  · subst e
    rcases c2 with ⟨f, _⟩ | ⟨f, _⟩
    · subst f; rcases e' with e' | e' <;> simp at e'
    · subst f; exact lt_irrefl _ h2

/-- Non-vacuity: X in [-1,2], Y in [3,∞): 2XY + X/Y is covered. -/
example : Covered (fun _ => (3, ⊤)) (fun i => if i = 0 then (-1, 2) else (3, ⊤)) (fun _ => 4)
    (.sum (.shiftScale (.mul (.var 0) (.var 1)) 0 2) (.div (.var 0) (.var 1))) := by
  refine ⟨⟨by norm_num, trivial, trivial⟩, trivial, trivial, by norm_num [den], ?_⟩
  intro r h
  simp [attr.meth] at h
  subst h
  left; norm_num

/-- **C30 violated by differences**: for X, Y in [0,1] the range of X - Y is [0,0]. -/
theorem C30_violated_sub : ¬ C30_full := by
  intro h
  have := h (fun _ => ((0 : ℝ), (1 : ℝ))) (fun _ => ((0 : ℝ), (1 : ℝ))) (fun i => if i = 0 then 1 else 0)
    (.sub (.var 0) (.var 1)) ((0 : ℝ), (0 : ℝ)) (by
      intro i
      by_cases hi : i = 0 <;> simp [InRange, hi]) (by
      have e0 : (((0 : ℝ) : EReal) - ((0 : ℝ) : EReal)) = ((0 : ℝ) : EReal) := by
        rw [← EReal.coe_sub, sub_zero]
      have e1 : (((1 : ℝ) : EReal) - ((1 : ℝ) : EReal)) = ((0 : ℝ) : EReal) := by
        rw [← EReal.coe_sub, sub_self]
      simp only [attr.meth, attr, Range.sub, e0, e1, Option.bind_eq_bind, Option.bind_some])
  have h2 := this.2
  simp only [den] at h2
  have h3 : (if (0 : ℕ) = 0 then (1 : ℝ) else 0) - (if (1 : ℕ) = 0 then 1 else 0) ≤ 0 := by exact_mod_cast h2
  norm_num at h3

/-- **C30 violated by functions of a variable**: the range of `abs(X)` is [0,1] whatever X is. -/
theorem C30_violated_function : ¬ C30_full := by
  intro h
  have := h (fun _ => ((-2 : ℝ), (2 : ℝ))) (fun _ => ((-2 : ℝ), (2 : ℝ))) (fun _ => 2) (.abs (.var 0)) (0, 1) (by
      intro i
      refine ⟨⟨?_, ?_⟩, ⟨?_, ?_⟩⟩ <;> exact EReal.coe_le_coe_iff.2 (by norm_num)) (by
      simp only [attr.meth, attr])
  have h2 := this.2
  simp only [den] at h2
  have : |(2:ℝ)| ≤ 1 := by exact_mod_cast h2
  norm_num at this

/-- **C30 violated by a divisor range with 0 inside**: for X in [1,2] and Y in [-1,1] the stated range of
X / Y is [-2, ∞), which misses the outcome 1 / (-1/4) = -4. -/
theorem C30_violated_div :
    Range.div ((1 : ℝ), (2 : ℝ)) ((-1 : ℝ), (1 : ℝ)) = some (((-2 : ℝ) : EReal), ⊤) ∧
      ¬ InRange (1 / (-1 / 4)) (((-2 : ℝ) : EReal), ⊤) := by
  constructor
  · have w1 : withZero (((1 : ℝ) : EReal), ((2 : ℝ) : EReal)) = [((1 : ℝ) : EReal), ((2 : ℝ) : EReal)] := by
      unfold withZero
      rw [if_neg]
      rw [← EReal.coe_mul, ← EReal.coe_zero, EReal.coe_lt_coe_iff]; norm_num
    have w2 : withZero (((-1 : ℝ) : EReal), ((1 : ℝ) : EReal))
        = [((-1 : ℝ) : EReal), ((1 : ℝ) : EReal), ((0 : ℝ) : EReal)] := by
      unfold withZero
      rw [if_pos]
      · rfl
      · rw [← EReal.coe_mul, ← EReal.coe_zero, EReal.coe_lt_coe_iff]; norm_num
    have n : ∀ x y : ℝ, y ≠ 0 → npDiv x y = some ((x / y : ℝ) : EReal) := by
      intro x y hy
      unfold npDiv
      rw [if_neg (by exact_mod_cast hy), if_neg (by simp), EReal.coe_div]
    have z : ∀ x : ℝ, 0 < x → npDiv x (0 : ℝ) = some ⊤ := by
      intro x hx
      unfold npDiv
      rw [if_pos EReal.coe_zero, if_pos (by exact_mod_cast hx)]
    unfold Range.div
    rw [w1, w2]
    simp only [List.flatMap_cons, List.flatMap_nil, List.map_cons, List.map_nil, List.cons_append,
      List.nil_append, List.append_nil, n 1 (-1) (by norm_num), n 1 1 one_ne_zero, n 2 (-1) (by norm_num),
      n 2 1 one_ne_zero, z 1 one_pos, z 2 two_pos, span, List.filterMap_cons, id, List.filterMap_nil,
      List.foldl_cons, List.foldl_nil]
    congr 2
    · rw [min_eq_left le_top, min_eq_left (a := min _ _) (b := ⊤) le_top]
      rw [← EReal.coe_strictMono.monotone.map_min, ← EReal.coe_strictMono.monotone.map_min,
        ← EReal.coe_strictMono.monotone.map_min]
      norm_num
  · rintro ⟨h, _⟩
    have := EReal.coe_le_coe_iff.1 h
    norm_num at this

/-- **C30 violated by a shifted leaf**: a leaf that states its range through the method `range()` only
(a normal variable: attributes 0, 1, method (-∞, ∞)) gets the range [1, 2] when shifted by 1. -/
theorem C30_violated_shift :
    attr.meth (fun _ => ((0 : ℝ), (1 : ℝ))) (fun _ => (⊥, ⊤)) (.shiftScale (.var 0) 1 1)
        = some (((1 : ℝ) : EReal), ((2 : ℝ) : EReal)) ∧
      InRange 5 (⊥, ⊤) ∧ ¬ InRange (den (fun _ => 5) (.shiftScale (.var 0) 1 1)) ((1 : ℝ), (2 : ℝ)) := by
  refine ⟨?_, ⟨bot_le, le_top⟩, ?_⟩
  · simp only [attr.meth, attr, shiftScale, Option.map_some, ← EReal.coe_mul, ← EReal.coe_add]
    rw [← EReal.coe_strictMono.monotone.map_min, ← EReal.coe_strictMono.monotone.map_max]
    norm_num
  · rintro ⟨_, h⟩
    have := EReal.coe_le_coe_iff.1 h
    simp only [den] at this
    norm_num at this

end Pacal
