import Verif.Asymp.Model
import Mathlib.Analysis.SpecialFunctions.Log.Deriv
import Mathlib.Analysis.Complex.ExponentialBounds
import Mathlib.Tactic.Linarith
import Mathlib.Tactic.Ring

/-! Helper lemmas: the bisection of `_find_zero`. -/

namespace Pacal.Asymp
open Real

/-- the midpoint on a logarithmic scale -/
noncomputable def logMid (x y : ℝ) : ℝ := exp ((log x + log y) / 2)

theorem logMid_between {x y : ℝ} (hx : 0 < x) (hxy : x < y) : x < logMid x y ∧ logMid x y < y := by
  have hl : log x < log y := log_lt_log hx hxy
  unfold logMid
  constructor
  · rw [← exp_log hx]; apply exp_lt_exp.2; rw [log_exp]; linarith
  · nth_rewrite 2 [← exp_log (hx.trans hxy)]; apply exp_lt_exp.2; linarith

theorem log_logMid (x y : ℝ) : log (logMid x y) = (log x + log y) / 2 := by unfold logMid; rw [log_exp]

theorem findZeroLoop_step (f : ℝ → ℝ) (a ymax ymin : ℝ) (fuel : ℕ) {xMin xMax : ℝ}
    (hc : xMax > xMin * (1 + 1e-5) ∧ (f (a + logMid xMin xMax) < ymin ∨ f (a + logMid xMin xMax) > ymax)) :
    findZeroLoop f a ymax ymin (fuel + 1) xMin xMax = if f (a + logMid xMin xMax) < ymin
      then findZeroLoop f a ymax ymin fuel xMin (logMid xMin xMax) else findZeroLoop f a ymax ymin fuel (logMid xMin xMax) xMax := by
  rw [findZeroLoop]
  exact if_pos hc

theorem findZeroLoop_spec (f : ℝ → ℝ) (a ymax ymin : ℝ) : ∀ (fuel : ℕ) (xMin xMax : ℝ), 0 < xMin → xMin < xMax →
    log xMax - log xMin ≤ log (1 + 1e-5) * 2 ^ fuel →
    ∃ lo hi, xMin ≤ lo ∧ lo < hi ∧ hi ≤ xMax ∧ findZeroLoop f a ymax ymin fuel xMin xMax = .ok (a + logMid lo hi) ∧
      (hi = xMax ∨ f (a + hi) < ymin) ∧ (lo = xMin ∨ ymax < f (a + lo)) ∧
      (hi ≤ lo * (1 + 1e-5) ∨ (ymin ≤ f (a + logMid lo hi) ∧ f (a + logMid lo hi) ≤ ymax)) := by
  have stop : ∀ (fuel : ℕ) (xMin xMax : ℝ), xMin < xMax →
      ¬ (xMax > xMin * (1 + 1e-5) ∧ (f (a + logMid xMin xMax) < ymin ∨ f (a + logMid xMin xMax) > ymax)) →
      ∃ lo hi, xMin ≤ lo ∧ lo < hi ∧ hi ≤ xMax ∧ findZeroLoop f a ymax ymin fuel xMin xMax = .ok (a + logMid lo hi) ∧
      (hi = xMax ∨ f (a + hi) < ymin) ∧ (lo = xMin ∨ ymax < f (a + lo)) ∧
      (hi ≤ lo * (1 + 1e-5) ∨ (ymin ≤ f (a + logMid lo hi) ∧ f (a + logMid lo hi) ≤ ymax)) := by
    intro fuel xMin xMax hlt hc
    refine ⟨xMin, xMax, le_rfl, hlt, le_rfl, ?_, .inl rfl, .inl rfl, ?_⟩
    · unfold findZeroLoop
      exact if_neg hc
    · rcases not_and_or.1 hc with h | h
      · exact .inl (not_lt.1 h)
      · obtain ⟨h1, h2⟩ := not_or.1 h
        exact .inr ⟨not_lt.1 h1, not_lt.1 h2⟩
  intro fuel
  induction fuel with
  | zero =>
    intro xMin xMax h0 hlt hlog
    refine stop 0 xMin xMax hlt fun hc => ?_
    have h1 : log (xMin * (1 + 1e-5)) < log xMax := log_lt_log (by positivity) hc.1
    rw [log_mul h0.ne' (by norm_num)] at h1
    rw [pow_zero, mul_one] at hlog
    linarith
  | succ fuel ih =>
    intro xMin xMax h0 hlt hlog
    by_cases hc : xMax > xMin * (1 + 1e-5) ∧ (f (a + logMid xMin xMax) < ymin ∨ f (a + logMid xMin xMax) > ymax)
    · obtain ⟨hm1, hm2⟩ := logMid_between h0 hlt
      rw [pow_succ] at hlog
      rw [findZeroLoop_step f a ymax ymin fuel hc]
      by_cases hy : f (a + logMid xMin xMax) < ymin
      · rw [if_pos hy]
        obtain ⟨lo, hi, h1, h2, h3, h4, h5, h6, h7⟩ := ih xMin (logMid xMin xMax) h0 hm1 (by rw [log_logMid]; linarith)
        refine ⟨lo, hi, h1, h2, h3.trans hm2.le, h4, .inr ?_, h6, h7⟩
        rcases h5 with h | h
        · rw [h]; exact hy
        · exact h
      · rw [if_neg hy]
        obtain ⟨lo, hi, h1, h2, h3, h4, h5, h6, h7⟩ := ih (logMid xMin xMax) xMax (h0.trans hm1) hm2
          (by rw [log_logMid]; linarith)
        refine ⟨lo, hi, hm1.le.trans h1, h2, h3, h4, h5, .inr ?_, h7⟩
        rcases h6 with h | h
        · rw [h]; exact hc.2.resolve_left hy
        · exact h
    · exact stop _ _ _ hlt hc

/-- 30 halvings are enough -/
theorem fuel_enough : log (1e100 : ℝ) - log 1e-5 ≤ log (1 + 1e-5) * 2 ^ 30 := by
  have h2 := Real.log_two_lt_d9
  have h10 : log 10 ≤ 4 * log 2 := by
    rw [← log_rpow (by norm_num)]
    apply log_le_log (by norm_num)
    norm_num
  have e1 : log (1e100 : ℝ) = 100 * log 10 := by
    rw [show (1e100 : ℝ) = 10 ^ 100 by norm_num, log_pow]; norm_num
  have e2 : log (1e-5 : ℝ) = -(5 * log 10) := by
    rw [show (1e-5 : ℝ) = (10 ^ 5)⁻¹ by norm_num, log_inv, log_pow]; norm_num
  have h3 : 1 - (1 + 1e-5 : ℝ)⁻¹ ≤ log (1 + 1e-5) := one_sub_inv_le_log_of_pos (by norm_num)
  have h4 : (1 / 200000 : ℝ) ≤ 1 - (1 + 1e-5 : ℝ)⁻¹ := by norm_num
  rw [e1, e2]
  have : (1 / 200000 : ℝ) * 2 ^ 30 ≤ log (1 + 1e-5) * 2 ^ 30 := mul_le_mul_of_nonneg_right (h4.trans h3) (by norm_num)
  norm_num at this ⊢
  linarith

theorem logMid_narrow {lo hi : ℝ} (h0 : 0 < lo) (hlt : lo < hi) (h : hi ≤ lo * (1 + 1e-5)) :
    hi ≤ logMid lo hi * (1 + 1e-5) ∧ logMid lo hi ≤ lo * (1 + 1e-5) := by
  obtain ⟨h1, h2⟩ := logMid_between h0 hlt
  exact ⟨h.trans (mul_le_mul_of_nonneg_right h1.le (by norm_num)), h2.le.trans h⟩

theorem findZero_spec (f : ℝ → ℝ) (a : ℝ) :
    ∃ lo hi, 1e-5 ≤ lo ∧ lo < hi ∧ hi ≤ 1e100 ∧ findZero f a = .ok (a + logMid lo hi) ∧
      (hi = 1e100 ∨ f (a + hi) < 1e-150) ∧ (lo = 1e-5 ∨ 1e-120 < f (a + lo)) ∧
      (hi ≤ lo * (1 + 1e-5) ∨ (1e-150 ≤ f (a + logMid lo hi) ∧ f (a + logMid lo hi) ≤ 1e-120)) :=
  findZeroLoop_spec f a 1e-120 1e-150 30 1e-5 1e100 (by norm_num) (by norm_num) fuel_enough

end Pacal.Asymp
