import Mathlib.Analysis.SpecialFunctions.Gamma.BohrMollerup
import Mathlib.Analysis.Real.Pi.Bounds
import Mathlib.Analysis.SpecialFunctions.Exponential

/-!
Decimal bounds of the logarithms that occur in the log-gamma routine.
-/

namespace Pacal.Gamma
open Finset

theorem le_log_of {a c : ℝ} (h0 : 0 ≤ a) (h1 : a ≤ 1) (n : ℕ) (hn : 0 < n)
    (h : (∑ m ∈ range n, a ^ m / m.factorial) + a ^ n * (n + 1) / (n.factorial * n) ≤ c) : a ≤ Real.log c := by
  have := (Real.exp_bound' h0 h1 hn).trans h
  rw [← Real.log_exp a]
  exact Real.log_le_log (Real.exp_pos a) this

theorem log_le_of {b c : ℝ} (hc : 0 < c) (h0 : 0 ≤ b) (n : ℕ) (h : c ≤ ∑ m ∈ range n, b ^ m / m.factorial) :
    Real.log c ≤ b := by
  have := h.trans (Real.sum_le_exp_of_nonneg h0 n)
  rw [← Real.log_exp b]
  exact Real.log_le_log hc this

theorem log_two_bounds : (0.693147180559945 : ℝ) ≤ Real.log 2 ∧ Real.log 2 ≤ 0.693147180559946 := by
  constructor
  · refine le_log_of (by norm_num) (by norm_num) 18 (by norm_num) ?_
    norm_num [sum_range_succ, Nat.factorial]
  · refine log_le_of (by norm_num) (by norm_num) 18 ?_
    norm_num [sum_range_succ, Nat.factorial]

theorem log_three_half_bounds : (0.405465108108164 : ℝ) ≤ Real.log (3 / 2) ∧ Real.log (3 / 2) ≤ 0.405465108108165 := by
  constructor
  · refine le_log_of (by norm_num) (by norm_num) 18 (by norm_num) ?_
    norm_num [sum_range_succ, Nat.factorial]
  · refine log_le_of (by norm_num) (by norm_num) 18 ?_
    norm_num [sum_range_succ, Nat.factorial]

theorem log_sixteen_bounds : (0.064538521137571 : ℝ) ≤ Real.log (16 / 15) ∧ Real.log (16 / 15) ≤ 0.064538521137572 := by
  constructor
  · refine le_log_of (by norm_num) (by norm_num) 18 (by norm_num) ?_
    norm_num [sum_range_succ, Nat.factorial]
  · refine log_le_of (by norm_num) (by norm_num) 18 ?_
    norm_num [sum_range_succ, Nat.factorial]

theorem log_half_pi_bounds : (0.451582705289454 : ℝ) ≤ Real.log (Real.pi / 2) ∧ Real.log (Real.pi / 2) ≤ 0.451582705289456 := by
  constructor
  · refine le_log_of (c := Real.pi / 2) (by norm_num) (by norm_num) 18 (by norm_num) ?_
    refine le_trans ?_ (show (3.14159265358979323846 : ℝ) / 2 ≤ Real.pi / 2 by linarith [Real.pi_gt_d20])
    norm_num [sum_range_succ, Nat.factorial]
  · refine log_le_of (by positivity) (by norm_num) 18 ?_
    refine le_trans (show Real.pi / 2 ≤ (3.14159265358979323847 : ℝ) / 2 by linarith [Real.pi_lt_d20]) ?_
    norm_num [sum_range_succ, Nat.factorial]

theorem log_pi_eq : Real.log Real.pi = Real.log 2 + Real.log (Real.pi / 2) := by
  rw [← Real.log_mul (by norm_num) (by positivity)]
  congr 1
  ring

theorem log_two_pi_eq : Real.log (2 * Real.pi) = 2 * Real.log 2 + Real.log (Real.pi / 2) := by
  rw [Real.log_mul (by norm_num) Real.pi_pos.ne', log_pi_eq]
  ring

theorem log_fifteen_half_eq : Real.log (15 / 2) = 3 * Real.log 2 - Real.log (16 / 15) := by
  have : (15 / 2 : ℝ) = 2 ^ 3 / (16 / 15) := by norm_num
  rw [this, Real.log_div (by norm_num) (by norm_num), Real.log_pow]
  norm_num

theorem gamma_five_half : Real.Gamma (5 / 2) = 3 / 4 * √Real.pi := by
  have h1 : Real.Gamma (5 / 2) = 3 / 2 * Real.Gamma (3 / 2) := by
    rw [← Real.Gamma_add_one (by norm_num)]
    norm_num
  have h2 : Real.Gamma (3 / 2) = 1 / 2 * Real.Gamma (1 / 2) := by
    rw [← Real.Gamma_add_one (by norm_num)]
    norm_num
  rw [h1, h2, Real.Gamma_one_half_eq]
  ring

theorem log_gamma_five_half :
    Real.log (Real.Gamma (5 / 2)) = Real.log (3 / 2) - Real.log 2 / 2 + Real.log (Real.pi / 2) / 2 := by
  have h : (3 / 4 : ℝ) = (3 / 2) / 2 := by norm_num
  rw [gamma_five_half, Real.log_mul (by norm_num) (by positivity), Real.log_sqrt Real.pi_pos.le, log_pi_eq, h,
    Real.log_div (by norm_num) (by norm_num)]
  ring

end Pacal.Gamma
