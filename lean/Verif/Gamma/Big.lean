import Verif.Gamma.Model
import Verif.Gamma.Stirling
import Verif.Gamma.Numbers

/-!
Accuracy of the constants and of the branch for large arguments.
-/

namespace Pacal.Gamma

theorem logPi_close : |logPi - Real.log Real.pi| ≤ 1e-14 := by
  rw [log_pi_eq, logPi, abs_le]
  have h1 := log_two_bounds
  have h2 := log_half_pi_bounds
  constructor <;> norm_num at * <;> linarith [h1.1, h1.2, h2.1, h2.2]

theorem ls2pi_close : |ls2pi - Real.log (2 * Real.pi) / 2| ≤ 1e-14 := by
  rw [log_two_pi_eq, ls2pi, abs_le]
  have h1 := log_two_bounds
  have h2 := log_half_pi_bounds
  constructor <;> norm_num at * <;> linarith [h1.1, h1.2, h2.1, h2.2]

theorem polevl_coefA (x : ℝ) : (polevl x coefA 4).getD 0 =
    (((8.11614167470508450300E-4 * x + -5.95061904284301438324E-4) * x + 7.93650340457716943945E-4) * x
      + -2.77777777730099687205E-3) * x + 8.33333333333331927722E-2 := rfl

theorem rlo_eq {x : ℝ} (hx : 0 < x) :
    rlo x = (1 / 12 - (1 / (x * x)) / 360 + (1 / (x * x)) ^ 2 / 1260 - (1 / (x * x)) ^ 3 / 1680) / x := by
  rw [rlo]
  field_simp
  try ring

theorem tail_small {x a : ℝ} (ha : 0 < a) (hx : a ≤ x) : 0 ≤ 1 / (1188 * x ^ 9) ∧ 1 / (1188 * x ^ 9) ≤ 1 / (1188 * a ^ 9) := by
  have hx0 : 0 < x := by linarith
  refine ⟨by positivity, ?_⟩
  refine one_div_le_one_div_of_le (by positivity) ?_
  gcongr

theorem close_of_parts {q c v m r e t : ℝ} (h1 : |c| ≤ 1e-14) (h2 : |v - r| ≤ e) (h3 : r ≤ m ∧ m ≤ r + t) (ht : 0 ≤ t)
    (hq : q = c + (v - m)) : |q| ≤ 1e-14 + e + t := by
  rw [hq]
  rw [abs_le] at *
  constructor <;> linarith [h1.1, h1.2, h2.1, h2.2, h3.1, h3.2]

/-- between 13 and 1e8 -/
theorem codeBig_close {x : ℝ} (h13 : 13 ≤ x) (h8 : x ≤ 1.0e8) : |codeBig x - Real.log (Real.Gamma x)| ≤ 1e-12 := by
  have hx : 0 < x := by linarith
  have hm := mu_bounds hx
  have hp0 : 0 < 1 / (x * x) := by positivity
  have hxi : 1 / x ≤ 1 / 13 := one_div_le_one_div_of_le (by norm_num) h13
  have hxi0 : 0 < 1 / x := by positivity
  have hn : ¬(1.0e8 < x) := not_lt.2 h8
  have hlog : Real.log (Real.Gamma x) = (x - 1 / 2) * Real.log x - x + Real.log (2 * Real.pi) / 2 + mu x := by
    rw [mu, stir]
    ring
  have ht := tail_small (by norm_num : (0 : ℝ) < 13) h13
  rw [codeBig]
  simp only [if_neg hn]
  split_ifs with h
  · have hp1 : 1 / (x * x) ≤ 1 / 1000000 := one_div_le_one_div_of_le (by norm_num) (by nlinarith)
    obtain ⟨p, hp⟩ : ∃ p, p = 1 / (x * x) := ⟨_, rfl⟩
    have hr := rlo_eq hx
    rw [← hp] at hr hp0 hp1 ⊢
    have h3 : p ^ 3 ≤ (1 / 1000000) ^ 3 := pow_le_pow_left₀ hp0.le hp1 3
    have h30 : 0 ≤ p ^ 3 := by positivity
    have h2 : p ^ 2 ≤ (1 / 1000000) ^ 2 := pow_le_pow_left₀ hp0.le hp1 2
    have h20 : 0 ≤ p ^ 2 := by positivity
    have hd : |((7.9365079365079365079365e-4 * p - 2.7777777777777777777778e-3) * p + 0.0833333333333333333333) / x - rlo x|
        ≤ 1e-13 := by
      rw [hr, ← sub_div, div_eq_mul_one_div, abs_mul, abs_of_pos hxi0]
      refine (mul_le_mul (b := (1e-13 : ℝ)) ?_ hxi hxi0.le (by norm_num)).trans (by norm_num)
      rw [abs_le]
      norm_num at h3 h2 hp1 ⊢
      constructor <;> nlinarith
    refine (close_of_parts ls2pi_close hd (m := mu x) (t := 1 / (1188 * x ^ 9)) hm ht.1 ?_).trans ?_
    · rw [hlog]
      norm_num
      ring
    · norm_num at ht ⊢
      linarith [ht.2]
  · have hp1 : 1 / (x * x) ≤ 1 / 169 := one_div_le_one_div_of_le (by norm_num) (by nlinarith)
    obtain ⟨p, hp⟩ : ∃ p, p = 1 / (x * x) := ⟨_, rfl⟩
    have hr := rlo_eq hx
    rw [← hp] at hr hp0 hp1 ⊢
    have h4 : p ^ 4 ≤ (1 / 169) ^ 4 := pow_le_pow_left₀ hp0.le hp1 4
    have h40 : 0 ≤ p ^ 4 := by positivity
    have h3 : p ^ 3 ≤ (1 / 169) ^ 3 := pow_le_pow_left₀ hp0.le hp1 3
    have h30 : 0 ≤ p ^ 3 := by positivity
    have h2 : p ^ 2 ≤ (1 / 169) ^ 2 := pow_le_pow_left₀ hp0.le hp1 2
    have h20 : 0 ≤ p ^ 2 := by positivity
    have hd : |(polevl p coefA 4).getD 0 / x - rlo x| ≤ 5e-13 := by
      rw [hr, ← sub_div, div_eq_mul_one_div, abs_mul, abs_of_pos hxi0, polevl_coefA]
      refine (mul_le_mul (b := (5e-12 : ℝ)) ?_ hxi hxi0.le (by norm_num)).trans (by norm_num)
      rw [abs_le]
      norm_num at h4 h3 h2 hp1 ⊢
      constructor
      · ring_nf
        linarith
      · ring_nf
        linarith
    refine (close_of_parts ls2pi_close hd (m := mu x) (t := 1 / (1188 * x ^ 9)) hm ht.1 ?_).trans ?_
    · rw [hlog]
      norm_num
      ring
    · norm_num at ht ⊢
      linarith [ht.2]

/-- beyond 1e8 -/
theorem codeBig_close' {x : ℝ} (h8 : 1.0e8 < x) : |codeBig x - Real.log (Real.Gamma x)| ≤ 8.4e-10 := by
  norm_num at h8
  have hx : 0 < x := by linarith
  have hm := mu_bounds hx
  have hlog : Real.log (Real.Gamma x) = (x - 1 / 2) * Real.log x - x + Real.log (2 * Real.pi) / 2 + mu x := by
    rw [mu, stir]
    ring
  have ht := tail_small (by norm_num : (0 : ℝ) < 13) (by linarith : 13 ≤ x)
  have hn : (1.0e8 : ℝ) < x := by norm_num; exact h8
  have hp0 : 0 < 1 / (x * x) := by positivity
  have hp1 : 1 / (x * x) ≤ 1 / 10000000000000000 := one_div_le_one_div_of_le (by norm_num) (by nlinarith)
  have hxi : 1 / x ≤ 1 / 100000000 := one_div_le_one_div_of_le (by norm_num) h8.le
  have hxi0 : 0 < 1 / x := by positivity
  rw [codeBig]
  simp only [if_pos hn]
  have hr := rlo_eq hx
  obtain ⟨p, hp⟩ : ∃ p, p = 1 / (x * x) := ⟨_, rfl⟩
  rw [← hp] at hr hp0 hp1
  have h3 : p ^ 3 ≤ (1 / 10000000000000000) ^ 3 := pow_le_pow_left₀ hp0.le hp1 3
  have h30 : 0 ≤ p ^ 3 := by positivity
  have h2 : p ^ 2 ≤ (1 / 10000000000000000) ^ 2 := pow_le_pow_left₀ hp0.le hp1 2
  have h20 : 0 ≤ p ^ 2 := by positivity
  have hd : |0 - rlo x| ≤ 8.35e-10 := by
    rw [hr, zero_sub, abs_neg, div_eq_mul_one_div, abs_mul, abs_of_pos hxi0]
    refine (mul_le_mul (b := (8.35e-2 : ℝ)) ?_ hxi hxi0.le (by norm_num)).trans (by norm_num)
    rw [abs_le]
    norm_num at h3 h2 hp1 ⊢
    constructor <;> linarith
  refine (close_of_parts ls2pi_close hd (m := mu x) (t := 1 / (1188 * x ^ 9)) hm ht.1 ?_).trans ?_
  · rw [hlog]
    norm_num
    ring
  · norm_num at ht ⊢
    linarith [ht.2]

end Pacal.Gamma
