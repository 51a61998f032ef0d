import Verif.Graph.Operators

/-!
# Property C27: operator shortcuts agree with the general operation

For every operand combination the object returned has, for every outcome of the variables, the value of
the operation.  Divisions and powers are stated for outcomes where the operation is defined.
-/

namespace Pacal
open Operators

/-- **C27, + and -.** -/
theorem C27_add (a b : Val) (hb : (∃ x, a = .rv x) ∨ ∃ y, b = .rv y) :
    ∃ r, add a b = .ok r ∧ ∀ env, r.den env = a.den env + b.den env := by
  rcases a with d | x <;> rcases b with e | y
  · rcases hb with ⟨_, h⟩ | ⟨_, h⟩ <;> cases h
  · exact ⟨_, by simp [add, mkShiftScale, Except.map]; rfl, fun env => by
      simp [Val.den, Operators.den]; ring⟩
  · exact ⟨_, by simp [add, mkShiftScale, Except.map]; rfl, fun env => by simp [Val.den, Operators.den]⟩
  · exact ⟨_, rfl, fun env => rfl⟩

theorem C27_sub (a b : Val) (hb : (∃ x, a = .rv x) ∨ ∃ y, b = .rv y) :
    ∃ r, sub a b = .ok r ∧ ∀ env, r.den env = a.den env - b.den env := by
  rcases a with d | x <;> rcases b with e | y
  · rcases hb with ⟨_, h⟩ | ⟨_, h⟩ <;> cases h
  · exact ⟨_, by simp [sub, mkShiftScale, Except.map]; rfl, fun env => by
      simp [Val.den, Operators.den]; ring⟩
  · exact ⟨_, by simp [sub, mkShiftScale, Except.map]; rfl, fun env => by
      simp [Val.den, Operators.den]; ring⟩
  · exact ⟨_, rfl, fun env => rfl⟩

theorem C27_neg (x : RExpr) : ∃ r, neg x = .ok r ∧ ∀ env, r.den env = -(den env x) :=
  ⟨_, by simp [neg, mkShiftScale, Except.map]; rfl, fun env => by simp [Val.den, Operators.den]⟩

/-- **C27, multiplication**, all numbers including 0 and 1 on both sides. -/
theorem C27_mul (a b : Val) (hb : (∃ x, a = .rv x) ∨ ∃ y, b = .rv y) :
    ∃ r, mul a b = .ok r ∧ ∀ env, r.den env = a.den env * b.den env := by
  rcases a with d | x <;> rcases b with e | y
  · rcases hb with ⟨_, h⟩ | ⟨_, h⟩ <;> cases h
  · by_cases h0 : d = 0
    · exact ⟨.num 0, by simp [mul, h0], fun env => by simp [Val.den, h0]⟩
    · by_cases h1 : d = 1
      · exact ⟨.rv y, by simp [mul, h1], fun env => by simp [Val.den, h1]⟩
      · exact ⟨.rv (.shiftScale y 0 d), by simp [mul, h0, h1, mkShiftScale, Except.map], fun env => by
          simp [Val.den, Operators.den]⟩
  · by_cases h0 : e = 0
    · exact ⟨.num 0, by simp [mul, h0], fun env => by simp [Val.den, h0]⟩
    · exact ⟨.rv (.shiftScale x 0 e), by simp [mul, h0, mkShiftScale, Except.map], fun env => by
        simp [Val.den, Operators.den, mul_comm]⟩
  · exact ⟨_, rfl, fun env => rfl⟩

/-- **C27, division.** Every division is accepted except by the number 0, which raises; the outcome is
the quotient whenever the outcome of the divisor is not 0. -/
theorem C27_div (a b : Val) (hb : (∃ x, a = .rv x) ∨ ∃ y, b = .rv y) (h0 : b ≠ .num 0) :
    ∃ r, div a b = .ok r ∧ ∀ env, b.den env ≠ 0 → r.den env = a.den env / b.den env := by
  rcases a with d | x <;> rcases b with e | y
  · rcases hb with ⟨_, h⟩ | ⟨_, h⟩ <;> cases h
  · by_cases hd : d = 0
    · exact ⟨.num 0, by simp [div, hd], fun env _ => by simp [Val.den, hd]⟩
    · obtain ⟨r, h1, h2⟩ := C27_mul (.num d) (.rv (.inv y)) (.inr ⟨_, rfl⟩)
      refine ⟨r, by simp [div, hd, h1], fun env _ => ?_⟩
      rw [h2]
      simp [Val.den, Operators.den]
      ring
  · have he : e ≠ 0 := fun h => h0 (by rw [h])
    by_cases h1 : e = 1
    · exact ⟨.rv x, by simp [div, h1], fun env _ => by simp [Val.den, h1]⟩
    · exact ⟨.rv (.shiftScale x 0 (1 / e)), by simp [div, h1, he, mkShiftScale, Except.map], fun env _ => by
        simp [Val.den, Operators.den]; ring⟩
  · exact ⟨_, rfl, fun env _ => rfl⟩

theorem C27_div_zero_rejected (x : RExpr) : div (.rv x) (.num 0) = .error .zeroDivision := by
  simp [div]

/-- **C27, powers with a number as exponent.** For the exponents 0, 1, -1, 2 the law is that of the power
for every outcome (for -1: every outcome but 0) and the sign of the base does not matter; every other
exponent needs a nonnegative base, for which the outcome is the real power whenever the outcome of the base
is positive; a base that may be negative is rejected with `ValueError`. -/
theorem C27_pow_num (nonneg : RExpr → Bool) (x : RExpr) (d : ℝ) :
    (d = 0 → ∃ r, pow nonneg (.rv x) (.num d) = .ok r ∧ ∀ env, r.den env = 1) ∧
    (d = 1 → ∃ r, pow nonneg (.rv x) (.num d) = .ok r ∧ ∀ env, r.den env = den env x) ∧
    (d = -1 → ∃ r, pow nonneg (.rv x) (.num d) = .ok r ∧ ∀ env, r.den env = (den env x)⁻¹) ∧
    (d = 2 → ∃ r, pow nonneg (.rv x) (.num d) = .ok r ∧ ∀ env, r.den env = den env x ^ 2) ∧
    (d ≠ 0 → d ≠ 1 → d ≠ -1 → d ≠ 2 →
      (nonneg x = true → ∃ r, pow nonneg (.rv x) (.num d) = .ok r ∧
        ∀ env, 0 < den env x → r.den env = den env x ^ d) ∧
      (nonneg x = false → pow nonneg (.rv x) (.num d) = .error .value)) := by
  refine ⟨?_, ?_, ?_, ?_, ?_⟩
  · rintro rfl; exact ⟨.num 1, by simp [pow], fun env => rfl⟩
  · rintro rfl; exact ⟨.rv x, by simp [pow], fun env => rfl⟩
  · rintro rfl
    exact ⟨.rv (.inv x), by simp only [pow]; norm_num, fun env => by simp [Val.den, Operators.den]⟩
  · rintro rfl
    exact ⟨.rv (.square x), by simp only [pow]; norm_num, fun env => by
      simp [Val.den, Operators.den]; ring⟩
  · intro h0 h1 h2 h3
    refine ⟨fun hn => ?_, fun hn => ?_⟩
    · refine ⟨.rv (.exp (.shiftScale (.log x) 0 d)), ?_, ?_⟩
      · simp only [pow, h0, h1, h2, h3, if_false, mkLog, hn, if_true, mkShiftScale]
        simp only [ne_eq, h0, not_false_eq_true, if_true]
        rfl
      · intro env hp
        simp only [Val.den, Operators.den, add_zero]
        rw [Real.rpow_def_of_pos hp, mul_comm]
    · simp only [pow, h0, h1, h2, h3, if_false, mkLog, hn]
      rfl

/-- **C27, power of two variables.** -/
theorem C27_pow_rv (nonneg : RExpr → Bool) (x y : RExpr) :
    (nonneg x = true → ∃ r, pow nonneg (.rv x) (.rv y) = .ok r ∧
      ∀ env, 0 < den env x → r.den env = den env x ^ den env y) ∧
    (nonneg x = false → pow nonneg (.rv x) (.rv y) = .error .value) := by
  refine ⟨fun hn => ⟨.rv (.exp (.mul (.log x) y)), ?_, ?_⟩, fun hn => ?_⟩
  · simp only [pow, mkLog, hn, if_true]; rfl
  · intro env hp
    simp only [Val.den, Operators.den]
    rw [Real.rpow_def_of_pos hp]
  · simp only [pow, mkLog, hn]; rfl

/-- **C27, number to a variable power**: positive bases give the real power for every outcome, negative
bases are rejected. -/
theorem C27_rpow (nonneg : RExpr → Bool) (a : ℝ) (x : RExpr) :
    (0 < a → ∃ r, pow nonneg (.num a) (.rv x) = .ok r ∧ ∀ env, r.den env = a ^ den env x) ∧
    (a < 0 → pow nonneg (.num a) (.rv x) = .error .value) ∧
    (a = 0 → ∃ r, pow nonneg (.num a) (.rv x) = .ok r ∧
      ∀ env, den env x ≠ 0 → r.den env = a ^ den env x) := by
  refine ⟨fun h => ?_, fun h => ?_, ?_⟩
  · by_cases h1 : a = 1
    · exact ⟨.num 1, by simp [pow, h1], fun env => by simp [Val.den, h1]⟩
    · have hl : Real.log a ≠ 0 := by
        intro h'
        rcases Real.log_eq_zero.1 h' with h' | h' | h'
        · linarith
        · exact h1 h'
        · linarith
      refine ⟨.rv (.exp (.shiftScale x 0 (Real.log a))), ?_, ?_⟩
      · simp only [pow, h.ne', h1, if_false, not_lt.2 h.le, mkShiftScale]
        simp only [ne_eq, hl, not_false_eq_true, if_true]; rfl
      · intro env
        simp only [Val.den, Operators.den, add_zero]
        rw [Real.rpow_def_of_pos h]
  · have h1 : a ≠ 1 := by intro h'; linarith
    simp only [pow, h.ne, h1, if_false, h, if_true]
  · rintro rfl
    refine ⟨.num 0, by simp [pow], fun env hx => ?_⟩
    simp only [Val.den]
    rw [Real.zero_rpow hx]

/-- **C27, finding.** `0 ** X` is the number 0 for every `X`, also at outcomes 0 of `X`, where `0 ** 0`
is 1 (and where `X ** 0` is 1 according to the library). -/
theorem C27_violated_zero_pow : ∃ (x : RExpr) (env : ℕ → ℝ) (r : Val),
    pow (fun _ => true) (.num 0) (.rv x) = .ok r ∧ r.den env ≠ (0 : ℝ) ^ den env x := by
  refine ⟨.var 0, fun _ => 0, .num 0, by simp [pow], ?_⟩
  simp [Val.den, Operators.den]

/-- **C27, min, max, abs, sqrt.** -/
theorem C27_min (a b : Val) : ∃ r, minOp a b = .ok r ∧ ∀ env, r.den env = min (a.den env) (b.den env) := by
  rcases a with d | x <;> rcases b with e | y <;> exact ⟨_, rfl, fun env => rfl⟩

theorem C27_max (a b : Val) : ∃ r, maxOp a b = .ok r ∧ ∀ env, r.den env = max (a.den env) (b.den env) := by
  rcases a with d | x <;> rcases b with e | y <;> exact ⟨_, rfl, fun env => rfl⟩

theorem C27_abs (x : RExpr) : ∃ r, absOp x = .ok r ∧ ∀ env, r.den env = |den env x| :=
  ⟨_, rfl, fun _ => rfl⟩

theorem C27_sqrt (nonneg : RExpr → Bool) (x : RExpr) :
    (nonneg x = true → ∃ r, sqrtOp nonneg x = .ok r ∧
      ∀ env, 0 < den env x → r.den env = Real.sqrt (den env x)) ∧
    (nonneg x = false → sqrtOp nonneg x = .error .value) := by
  refine ⟨fun hn => ?_, fun hn => by simp [sqrtOp, hn]⟩
  obtain ⟨r, h1, h2⟩ := ((C27_pow_num nonneg x (1 / 2)).2.2.2.2 (by norm_num) (by norm_num) (by norm_num)
    (by norm_num)).1 hn
  exact ⟨r, by simp only [sqrtOp, hn, if_true, h1], fun env hp => by rw [h2 env hp, Real.sqrt_eq_rpow]⟩

/-- Non-vacuity: `3 / (2 - X)` at the outcome `X = 1/2`. -/
example : ∃ r s, sub (.num 2) (.rv (.var 0)) = .ok r ∧ div (.num 3) r = .ok s ∧
    s.den (fun _ => 1 / 2) = 2 := by
  obtain ⟨r, h1, h2⟩ := C27_sub (.num 2) (.rv (.var 0)) (.inr ⟨_, rfl⟩)
  have hr : r = .rv (.shiftScale (.var 0) 2 (-1)) := by
    simp [sub, mkShiftScale, Except.map] at h1; exact h1.symm
  obtain ⟨s, h3, h4⟩ := C27_div (.num 3) r (.inr ⟨_, hr⟩) (by rw [hr]; simp)
  refine ⟨r, s, h1, h3, ?_⟩
  rw [h4, h2]
  · norm_num [Val.den, Operators.den]
  · rw [h2]; norm_num [Val.den, Operators.den]

end Pacal
