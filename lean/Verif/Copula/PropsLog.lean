import Verif.Copula.LemLog

/-!
C90: the stable logarithms and the generator of the Frank copula in two variables.
-/

namespace Pacal.Copula
open Real

/-- `logexp_p1(x, a)` of an array is `log(|a| exp(x) + 1)`, elementwise and to relative accuracy `2 * 10 ** (-16)`, for every `x`
and `a` other than 0 -/
theorem C90_logexp_p1 (xs : List ℝ) (a : ℝ) (ha : a ≠ 0) : ∃ ys, logexpP1 (.array xs) a = .ok (.array ys) ∧
    List.Forall₂ (fun x y => Close y (log (|a| * exp x + 1))) xs ys := by
  refine ⟨_, rfl, ?_⟩
  rw [List.forall₂_map_right_iff, List.forall₂_same]
  intro x _
  rw [add_comm]
  exact p1_close ha

/-- `log_1m_exp(x, a)` of an array is `log|1 - |a| exp(x)|` -/
theorem C90_log_1m_exp (xs : List ℝ) (a : ℝ) (ha : a ≠ 0) : ∃ ys, log1mExp (.array xs) a = .ok (.array ys) ∧
    List.Forall₂ (fun x y => Close y (log |1 - |a| * exp x|)) xs ys := by
  refine ⟨_, rfl, ?_⟩
  rw [List.forall₂_map_right_iff, List.forall₂_same]
  intro x _
  exact l1m_close ha

/-- `logexp_m1(x)` is `-log|exp(-x) - 1|`, for numbers and arrays -/
theorem C90_logexp_m1_partial (x : Arg) : x.Forall₂ (fun x y => Close y (-log |exp (-x) - 1|)) (logexpM1 x 1) := by
  have h : ∀ x : ℝ, Close (m1 x 1) (-log |exp (-x) - 1|) := by
    intro x
    have := m1_close (x := x) (a := 1) one_ne_zero
    rwa [abs_one, div_one] at this
  cases x with
  | scalar x => exact h x
  | array xs =>
    change List.Forall₂ _ xs (xs.map _)
    rw [List.forall₂_map_right_iff, List.forall₂_same]
    exact fun x _ => h x

/-- The generator of the Frank copula.  For every parameter other than 0 and every `t > 0`, number or array, the value is that
of the generator `-log((exp(-t theta) - 1)/(exp(-theta) - 1))` with an error of at most `2 * 10 ** (-16)` relative to its two
terms. -/
theorem C90_fi (theta : ℝ) (hth : theta ≠ 0) (t : Arg) (ht : t.Forall₂ (fun t _ => 0 < t) t) :
    t.Forall₂ (fun t y => |y - (frank theta).fi t| ≤
      2e-16 * (|log (|exp (-t * theta) - 1|)| + |log (|exp (-theta) - 1|)|)) (frank2dFi theta t) := by
  have hm : ∀ x : ℝ, Close (m1 x 1) (-log |exp (-x) - 1|) := by
    intro x
    have := m1_close (x := x) (a := 1) one_ne_zero
    rwa [abs_one, div_one] at this
  have h : ∀ t : ℝ, 0 < t → |m1 (t * theta) 1 - m1 theta 1 - (frank theta).fi t| ≤
      2e-16 * (|log (|exp (-t * theta) - 1|)| + |log (|exp (-theta) - 1|)|) := by
    intro t ht
    have h1 := hm (t * theta)
    have h2 := hm theta
    rw [Close, abs_neg, ← neg_mul] at h1
    rw [Close, abs_neg] at h2
    have e : (frank theta).fi t = -log |exp (-t * theta) - 1| - -log |exp (-theta) - 1| := by
      have n1 := fh_ne hth ht
      have n2 := fh_ne hth one_pos
      rw [frank_fi, ← log_abs, fr, abs_div, log_div (abs_ne_zero.2 n1) (abs_ne_zero.2 n2), fh_one, fh]
      ring
    rw [e, mul_add]
    refine le_trans ?_ (add_le_add h1 h2)
    refine le_trans (le_of_eq ?_) (abs_sub _ _)
    congr 1
    ring
  cases t with
  | scalar t => exact h t ht
  | array ts =>
    change List.Forall₂ _ ts (((ts.map _).map _).map _)
    rw [List.map_map, List.map_map, List.forall₂_map_right_iff, List.forall₂_same]
    exact fun t hm => h t (List.forall₂_same.1 ht t hm)

/-- The inverse of the generator.  For every parameter other than 0 and every array of values `s ≥ 0` the result is the inverse
of the generator, to relative accuracy `2 * 10 ** (-16)`. -/
theorem C90_fi_inv_partial (theta : ℝ) (hth : theta ≠ 0) (ss : List ℝ) (hs : ∀ s ∈ ss, 0 ≤ s) :
    ∃ ts, frank2dInv theta (.array ss) = .ok (.array ts) ∧
      List.Forall₂ (fun s t => Close t ((frank theta).inv s)) ss ts := by
  have hn := fh_ne hth one_pos
  rw [fh_one] at hn
  rcases lt_or_gt_of_ne hn with h | h
  · refine ⟨ss.map fun s => -1 / theta * l1m (-s) (exp (-theta) - 1), ?_, ?_⟩
    · rw [frank2dInv, if_neg (not_lt.2 h.le), if_pos h]
      simp [Arg.map, log1mExp, Except.map, Function.comp_def]
    · rw [List.forall₂_map_right_iff, List.forall₂_same]
      intro s hm
      have h1 := (l1m_close (x := -s) hn).mul (-1 / theta)
      have h2 := frank_arg_pos (theta := theta) (exp_pos (-s)).le (exp_neg_le_one (hs s hm))
      rw [fh_one] at h2
      rw [frank_inv, fh_one]
      rw [abs_of_neg h, show 1 - -(exp (-theta) - 1) * exp (-s) = exp (-s) * (exp (-theta) - 1) + 1 by ring, abs_of_pos h2] at h1
      convert h1 using 1
      ring
  · refine ⟨ss.map fun s => -1 / theta * p1 (-s) (exp (-theta) - 1), ?_, ?_⟩
    · rw [frank2dInv, if_pos h]
      simp [Arg.map, logexpP1, Except.map, Function.comp_def]
    · rw [List.forall₂_map_right_iff, List.forall₂_same]
      intro s hm
      have h1 := (p1_close (x := -s) hn).mul (-1 / theta)
      rw [frank_inv, fh_one]
      rw [abs_of_pos h, show 1 + (exp (-theta) - 1) * exp (-s) = exp (-s) * (exp (-theta) - 1) + 1 by ring] at h1
      convert h1 using 1
      ring

/-- the two exact functions are inverse to each other -/
theorem C90_inverse (theta : ℝ) (hth : theta ≠ 0) :
    (∀ t, 0 < t → t ≤ 1 → (frank theta).inv ((frank theta).fi t) = t) ∧
      ∀ s, 0 ≤ s → 0 < (frank theta).inv s ∧ (frank theta).inv s ≤ 1 ∧ (frank theta).fi ((frank theta).inv s) = s := by
  have h := frank_generator hth
  exact ⟨fun t h0 h1 => h.left_inv t h0 h1, fun s hs => ⟨(h.range s hs).1, (h.range s hs).2, h.right_inv s hs⟩⟩

/-- the hypotheses of `C90_fi` and `C90_fi_inv_partial` hold for a negative parameter and for values with all three branches -/
example : (Arg.array [1e-20, 1e-3, 1]).Forall₂ (fun t _ => 0 < t) (.array [1e-20, 1e-3, 1]) ∧ ((-5 : ℝ) ≠ 0) ∧
    ∀ s ∈ [(0 : ℝ), 1, 800], 0 ≤ s := by
  refine ⟨?_, by norm_num, by simp⟩
  simp [Arg.Forall₂]
  norm_num

/-- `FrankCopula2d.fi_inv` of a number fails, for every parameter other than 0 and every number: the helpers assign to the
elements of their argument. -/
theorem C90_violated_scalar (theta : ℝ) (s : ℝ) : frank2dInv theta (.scalar s) = .error .typ := by
  rw [frank2dInv]
  split_ifs <;> rfl

/-- `logexp_m1(x, a)` is documented as `-log(a * exp(-x) - 1)`; with `a = 2` and `x = 0` that is 0 and the function returns
`log(2)`, because it divides by `a`. -/
theorem C90_violated_m1 : logexpM1 (.scalar 0) 2 = .scalar (log 2) ∧ -log (2 * exp (-0) - 1) = 0 := by
  have e : exp (-(0 + log |2|)) = 1 / 2 := by
    rw [zero_add, exp_neg, abs_two, exp_log two_pos]; norm_num
  constructor
  · simp only [logexpM1, m1, e]
    rw [if_neg (by norm_num), if_neg (by norm_num), show |(1 / 2 : ℝ) - 1| = 2⁻¹ by norm_num [abs_of_neg], log_inv, neg_neg]
  · norm_num

/-- `log_1m_exp(x, a)` is documented as `-log(1 - a * exp(-x))`; with `a = 1/2` and `x = 0` that is `log(2)` and the function
returns `-log(2)`: the sign differs, and so does the sign of `x`, `x = 1` giving `log|1 - e/2|`. -/
theorem C90_violated_log_1m : log1mExp (.array [0, 1]) (1 / 2) = .ok (.array [-log 2, log |1 / 2 * exp 1 - 1|]) ∧
    -log (1 - 1 / 2 * exp (-0)) = log 2 := by
  have e : ∀ x, exp (x + log |1 / 2|) = 1 / 2 * exp x := by
    intro x
    rw [exp_shift (by norm_num), abs_of_pos (by norm_num)]
  have h1 := Real.exp_one_lt_d9
  have h2 := Real.exp_one_gt_d9
  constructor
  · simp only [log1mExp, List.map_cons, List.map_nil, l1m, e, exp_zero]
    rw [if_neg (by norm_num), if_neg (by norm_num), if_neg (by norm_num; linarith), if_neg (by norm_num; linarith),
      show |(1 / 2 * 1 : ℝ) - 1| = 2⁻¹ by norm_num [abs_of_neg], log_inv]
  · rw [neg_zero, exp_zero, show (1 : ℝ) - 1 / 2 * 1 = 2⁻¹ by norm_num, log_inv, neg_neg]

end Pacal.Copula
