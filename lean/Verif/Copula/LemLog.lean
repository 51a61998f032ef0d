import Verif.Copula.SpecLog
import Verif.Copula.Families
import Mathlib.Analysis.Complex.ExponentialBounds

/-!
Lemmas for C90.
-/

namespace Pacal.Copula
open Real

theorem log_ge_one {u : ℝ} (hu : 1e16 - 1 ≤ u) : 1 ≤ log u := by
  rw [Real.le_log_iff_exp_le (by linarith)]
  have := Real.exp_one_lt_d9
  linarith

/-- `log(1 + u)` for small and large `u` -/
theorem close_p {u : ℝ} (hu : 0 < u) : (u < 1e-16 → Close u (log (1 + u))) ∧ (1e16 < u → Close (log u) (log (1 + u))) := by
  have h0 : 0 ≤ log (1 + u) := log_nonneg (by linarith)
  constructor
  · intro h
    have h1 : log (1 + u) ≤ u := by
      have := log_le_sub_one_of_pos (show 0 < 1 + u by linarith); linarith
    have h2 : 1 - (1 + u)⁻¹ ≤ log (1 + u) := one_sub_inv_le_log_of_pos (by linarith)
    have h3 : 1 - (1 + u)⁻¹ = u / (1 + u) := by field_simp; ring
    rw [Close, abs_of_nonneg (by linarith), abs_of_nonneg h0]
    have h4 : u - u ^ 2 ≤ u / (1 + u) := by
      rw [le_div_iff₀ (by linarith)]
      nlinarith [pow_pos hu 3]
    have h5 : u / 2 ≤ log (1 + u) := by
      have : u / 2 ≤ u - u ^ 2 := by nlinarith
      linarith
    nlinarith
  · intro h
    have h1 : log (1 + u) - log u = log (1 + 1 / u) := by
      rw [← log_div (by linarith) (by linarith)]
      congr 1; field_simp; ring
    have h2 : log (1 + 1 / u) ≤ 1 / u := by
      have := log_le_sub_one_of_pos (show 0 < 1 + 1 / u by positivity); linarith
    have h3 : 1 / u ≤ 1e-16 := by
      rw [div_le_iff₀ hu]; nlinarith
    have h4 : 0 ≤ log (1 + 1 / u) := log_nonneg (by have : 0 < 1 / u := by positivity
                                                    linarith)
    have h5 := log_ge_one (u := 1 + u) (by linarith)
    rw [Close, abs_sub_comm, h1, abs_of_nonneg h4, abs_of_nonneg h0]
    linarith

/-- `log|1 - u|` for small and large `u` -/
theorem close_m {u : ℝ} (hu : 0 < u) : (u < 1e-16 → Close (-u) (log |u - 1|)) ∧ (1e16 < u → Close (log u) (log |u - 1|)) := by
  constructor
  · intro h
    have e : |u - 1| = 1 - u := by rw [abs_sub_comm, abs_of_pos (by linarith)]
    rw [e]
    have h1 : log (1 - u) ≤ -u := by
      have := log_le_sub_one_of_pos (show 0 < 1 - u by linarith); linarith
    have h2 : 1 - (1 - u)⁻¹ ≤ log (1 - u) := one_sub_inv_le_log_of_pos (by linarith)
    have h3 : 1 - (1 - u)⁻¹ = -u / (1 - u) := by
      have : (1 : ℝ) - u ≠ 0 := by linarith
      field_simp; ring
    have h4 : -u - 2 * u ^ 2 ≤ -u / (1 - u) := by
      rw [le_div_iff₀ (by linarith)]
      nlinarith [pow_pos hu 3, pow_pos hu 2]
    rw [Close, abs_of_nonneg (by linarith), abs_of_nonpos (by linarith)]
    nlinarith
  · intro h
    have e : |u - 1| = u - 1 := abs_of_pos (by linarith)
    rw [e]
    have h1 : log u - log (u - 1) = log (1 + 1 / (u - 1)) := by
      rw [← log_div (by linarith) (by linarith)]
      congr 1
      have : u - 1 ≠ 0 := by linarith
      field_simp; ring
    have hp : 0 < 1 / (u - 1) := by
      have : 0 < u - 1 := by linarith
      positivity
    have h2 : log (1 + 1 / (u - 1)) ≤ 1 / (u - 1) := by
      have := log_le_sub_one_of_pos (show 0 < 1 + 1 / (u - 1) by linarith); linarith
    have h3 : 1 / (u - 1) ≤ 2e-16 := by
      rw [div_le_iff₀ (by linarith)]; nlinarith
    have h4 : 0 ≤ log (1 + 1 / (u - 1)) := log_nonneg (by linarith)
    have h5 := log_ge_one (u := u - 1) (by linarith)
    rw [Close, h1, abs_of_nonneg h4, abs_of_nonneg (by linarith)]
    linarith

theorem close_rfl (v : ℝ) : Close v v := by
  rw [Close, sub_self, abs_zero]; positivity

theorem Close.neg {y v : ℝ} (h : Close y v) : Close (-y) (-v) := by
  rw [Close] at h ⊢
  rwa [show -y - -v = -(y - v) by ring, abs_neg, abs_neg]

theorem Close.mul {y v : ℝ} (h : Close y v) (c : ℝ) : Close (c * y) (c * v) := by
  rw [Close] at h ⊢
  rw [← mul_sub, abs_mul, abs_mul]
  nlinarith [abs_nonneg c]

theorem exp_shift {x a : ℝ} (ha : a ≠ 0) : exp (x + log |a|) = |a| * exp x := by
  rw [exp_add, exp_log (abs_pos.2 ha), mul_comm]

theorem p1_close {x a : ℝ} (ha : a ≠ 0) : Close (p1 x a) (log (1 + |a| * exp x)) := by
  have h := close_p (exp_pos (x + log |a|))
  rw [← exp_shift ha]
  simp only [p1]
  split_ifs with h1 h2
  · exact h.1 h1
  · have := h.2 h2
    rwa [log_exp] at this
  · exact close_rfl _

theorem l1m_close {x a : ℝ} (ha : a ≠ 0) : Close (l1m x a) (log |1 - |a| * exp x|) := by
  have h := close_m (exp_pos (x + log |a|))
  rw [← exp_shift ha, abs_sub_comm]
  simp only [l1m]
  split_ifs with h1 h2
  · exact h.1 h1
  · have := h.2 h2
    rwa [log_exp] at this
  · exact close_rfl _

theorem m1_close {x a : ℝ} (ha : a ≠ 0) : Close (m1 x a) (-log |exp (-x) / |a| - 1|) := by
  have h := close_m (exp_pos (-(x + log |a|)))
  have e : exp (-x) / |a| = exp (-(x + log |a|)) := by
    rw [neg_add, exp_add, exp_neg (log |a|), exp_log (abs_pos.2 ha)]; rfl
  rw [e]
  simp only [m1]
  split_ifs with h1 h2
  · have := (h.1 h1).neg
    rwa [neg_neg] at this
  · have := (h.2 h2).neg
    rwa [log_exp, neg_neg] at this
  · exact close_rfl _

end Pacal.Copula
