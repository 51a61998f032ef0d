import Mathlib.Analysis.SpecialFunctions.Complex.Log
import Mathlib.Analysis.SpecialFunctions.Trigonometric.Chebyshev.Basic
import Mathlib.Analysis.SpecialFunctions.Integrals.Basic
import Mathlib.RingTheory.Polynomial.Chebyshev
import Mathlib.Algebra.Ring.GeomSum
import Mathlib.Algebra.Polynomial.Eval.SMul
import Mathlib.Analysis.Calculus.Deriv.Polynomial
import Mathlib.Topology.Algebra.Polynomial
import Mathlib.Tactic.FieldSimp
import Mathlib.Tactic.Linarith
import Mathlib.Tactic.Ring

/-! Helper lemmas for C64: sums of cosines, integrals of Chebyshev polynomials, interpolatory rules. -/

namespace Pacal
namespace Rule
open Real Finset Polynomial Polynomial.Chebyshev

/-- a full period of equidistant cosines -/
theorem sum_cos {M : ℕ} (hM : 0 < M) (t : ℤ) :
    ∑ k ∈ range M, cos (2 * π * t * k / M) = if (M : ℤ) ∣ t then (M : ℝ) else 0 := by
  have hM' : (M : ℂ) ≠ 0 := by exact_mod_cast hM.ne'
  set z : ℂ := Complex.exp (2 * π * Complex.I * t / M) with hz
  have hk : ∀ k : ℕ, cos (2 * π * t * k / M) = (z ^ k).re := by
    intro k
    rw [hz, ← Complex.exp_nat_mul]
    rw [show (k : ℂ) * (2 * π * Complex.I * t / M) = ((2 * π * t * k / M : ℝ) : ℂ) * Complex.I by
      push_cast; field_simp]
    rw [Complex.exp_ofReal_mul_I_re]
  have hs : ∑ k ∈ range M, cos (2 * π * t * k / M) = (∑ k ∈ range M, z ^ k).re := by
    rw [Complex.re_sum]
    exact sum_congr rfl fun k _ => hk k
  rw [hs]
  have hzM : z ^ M = 1 := by
    rw [hz, ← Complex.exp_nat_mul, show (M : ℂ) * (2 * π * Complex.I * t / M) = t * (2 * π * Complex.I) by
      field_simp]
    exact Complex.exp_int_mul_two_pi_mul_I t
  split_ifs with h
  · obtain ⟨c, rfl⟩ := h
    have hz1 : z = 1 := by
      rw [hz, show (2 * π * Complex.I * ((M * c : ℤ) : ℂ) / M) = c * (2 * π * Complex.I) by
        push_cast; field_simp]
      exact Complex.exp_int_mul_two_pi_mul_I c
    simp [hz1]
  · have hz1 : z ≠ 1 := by
      intro h1
      rw [hz, Complex.exp_eq_one_iff] at h1
      obtain ⟨c, hc⟩ := h1
      apply h
      refine ⟨c, ?_⟩
      have hpi : (2 * π * Complex.I : ℂ) ≠ 0 := Complex.two_pi_I_ne_zero
      have : (t : ℂ) = M * c := by
        rw [div_eq_iff hM'] at hc
        have h2 : (2 * π * Complex.I : ℂ) * t = (2 * π * Complex.I) * (M * c) := by linear_combination hc
        exact mul_left_cancel₀ hpi h2
      exact_mod_cast this
    have := mul_geom_sum z M
    rw [hzM, sub_self] at this
    rcases mul_eq_zero.1 this with h2 | h2
    · exact (hz1 (sub_eq_zero.1 h2)).elim
    · rw [h2, Complex.zero_re]

/-- the weights with Fourier coefficients `u` -/
noncomputable def wt (M : ℕ) (u : ℕ → ℝ) (k : ℕ) : ℝ := (∑ j ∈ range M, u j * cos (2 * π * j * k / M)) / M

theorem wt_zero (M : ℕ) (u : ℕ → ℝ) : wt M u 0 = (∑ j ∈ range M, u j) / M := by
  simp [wt]

theorem wt_last {M : ℕ} (hM : 0 < M) (u : ℕ → ℝ) : wt M u M = wt M u 0 := by
  unfold wt
  congr 1
  refine sum_congr rfl fun j _ => ?_
  have : (M : ℝ) ≠ 0 := by exact_mod_cast hM.ne'
  rw [show 2 * π * j * M / M = j * (2 * π) by field_simp, cos_nat_mul_two_pi]
  simp

theorem wt_reflect {M : ℕ} (hM : 0 < M) (u : ℕ → ℝ) {k : ℕ} (hk : k ≤ M) : wt M u (M - k) = wt M u k := by
  unfold wt
  congr 1
  refine sum_congr rfl fun j _ => ?_
  have : (M : ℝ) ≠ 0 := by exact_mod_cast hM.ne'
  rw [Nat.cast_sub hk, show 2 * π * j * (M - k) / M = j * (2 * π) - 2 * π * j * k / M by field_simp,
    cos_nat_mul_two_pi_sub]

/-- weights with nonpositive higher coefficients are at least the weight at the end -/
theorem wt_ge {M : ℕ} (u : ℕ → ℝ) (hu : ∀ j, 1 ≤ j → j < M → u j ≤ 0) (k : ℕ) :
    wt M u 0 ≤ wt M u k := by
  rw [wt_zero]
  unfold wt
  refine div_le_div_of_nonneg_right (sum_le_sum fun j hj => ?_) (Nat.cast_nonneg M)
  rw [mem_range] at hj
  rcases Nat.eq_zero_or_pos j with rfl | h
  · simp
  · nlinarith [hu j h hj, cos_le_one (2 * π * j * k / M)]

/-- the discrete orthogonality: the rule applied to an even cosine -/
theorem sum_wt_cos {M : ℕ} (hM : 0 < M) (u : ℕ → ℝ) (hu : ∀ j, 1 ≤ j → j < M → u (M - j) = u j) {s : ℕ}
    (hs : s < M) : ∑ k ∈ range M, wt M u k * cos (2 * π * s * k / M) = u s := by
  have hM' : (M : ℝ) ≠ 0 := by exact_mod_cast hM.ne'
  have h1 : ∀ k ∈ range M, wt M u k * cos (2 * π * s * k / M)
      = ∑ j ∈ range M, u j / (2 * M) *
        (cos (2 * π * (j - s : ℤ) * k / M) + cos (2 * π * (j + s : ℤ) * k / M)) := by
    intro k _
    unfold wt
    rw [div_mul_eq_mul_div, sum_mul, sum_div]
    refine sum_congr rfl fun j _ => ?_
    push_cast
    rw [show 2 * π * ((j : ℝ) - s) * k / M = 2 * π * j * k / M - 2 * π * s * k / M by ring,
      show 2 * π * ((j : ℝ) + s) * k / M = 2 * π * j * k / M + 2 * π * s * k / M by ring, cos_sub, cos_add]
    field_simp
    ring
  rw [sum_congr rfl h1, sum_comm]
  have h2 : ∀ j ∈ range M, ∑ k ∈ range M, u j / (2 * M) *
        (cos (2 * π * (j - s : ℤ) * k / M) + cos (2 * π * (j + s : ℤ) * k / M))
      = (if j = s then u s / 2 else 0) + (if j = (M - s) % M then u s / 2 else 0) := by
    intro j hj
    rw [mem_range] at hj
    rw [← mul_sum, sum_add_distrib, sum_cos hM, sum_cos hM]
    have e1 : ((M : ℤ) ∣ (j : ℤ) - s) ↔ j = s := by
      constructor
      · intro h
        have := Int.eq_zero_of_abs_lt_dvd h (by rw [abs_lt]; omega)
        omega
      · rintro rfl; simp
    have e2 : ((M : ℤ) ∣ (j : ℤ) + s) ↔ j = (M - s) % M := by
      rcases Nat.eq_zero_or_pos s with rfl | h0
      · rw [Nat.sub_zero, Nat.mod_self]
        constructor
        · intro h
          have := Int.eq_zero_of_abs_lt_dvd h (by rw [abs_lt]; omega)
          omega
        · rintro rfl; simp
      · rw [Nat.mod_eq_of_lt (by omega)]
        constructor
        · rintro ⟨c, hc⟩
          have hc0 : 0 < c := by
            by_contra hn
            have : (M : ℤ) * c ≤ 0 := mul_nonpos_of_nonneg_of_nonpos (by omega) (by omega)
            omega
          have hc2 : c < 2 := by
            by_contra hn
            have : (M : ℤ) * 2 ≤ M * c := mul_le_mul_of_nonneg_left (by omega) (by omega)
            omega
          have : c = 1 := by omega
          subst this
          omega
        · rintro rfl; exact ⟨1, by omega⟩
    simp only [e1, e2]
    have e3 : j = (M - s) % M → u j = u s := by
      rcases Nat.eq_zero_or_pos s with rfl | h0
      · rw [Nat.sub_zero, Nat.mod_self]; rintro rfl; rfl
      · rw [Nat.mod_eq_of_lt (by omega)]; rintro rfl; exact hu s h0 hs
    by_cases c1 : j = s
    · by_cases c2 : j = (M - s) % M
      · rw [if_pos c1, if_pos c2, if_pos c1, if_pos c2, c1]; field_simp
      · rw [if_pos c1, if_neg c2, if_pos c1, if_neg c2, c1]; field_simp; ring
    · by_cases c2 : j = (M - s) % M
      · rw [if_neg c1, if_pos c2, if_neg c1, if_pos c2, e3 c2]; field_simp; ring
      · rw [if_neg c1, if_neg c2, if_neg c1, if_neg c2]; simp
  rw [sum_congr rfl h2, sum_add_distrib, sum_ite_eq' , sum_ite_eq', if_pos (mem_range.2 hs),
    if_pos (mem_range.2 (Nat.mod_lt _ hM))]
  ring

/-! ### integrals of Chebyshev polynomials -/

theorem integral_T_even (s : ℕ) : ∫ x in (-1 : ℝ)..1, (T ℝ (2 * s : ℕ)).eval x = 2 / (1 - 4 * (s : ℝ) ^ 2) := by
  have h1 : (2 * (s : ℝ) + 1) ≠ 0 := by positivity
  have h2 : (2 * (s : ℝ) - 1) ≠ 0 := by
    intro h
    have : (2 * s : ℝ) = 1 := by linarith
    have : 2 * s = 1 := by exact_mod_cast this
    omega
  have hd : ∀ x : ℝ, HasDerivAt (fun x => ((T ℝ (2 * s + 1)).eval x / (2 * s + 1)
      - (T ℝ (2 * s - 1)).eval x / (2 * s - 1)) / 2) ((T ℝ (2 * s : ℕ)).eval x) x := by
    intro x
    have := (((T ℝ (2 * s + 1)).hasDerivAt x).div_const (2 * s + 1)).sub
      (((T ℝ (2 * s - 1)).hasDerivAt x).div_const (2 * s - 1)) |>.div_const 2
    refine this.congr_deriv ?_
    rw [T_derivative_eq_U, T_derivative_eq_U]
    have h3 := congrArg (eval x) (two_mul_T_eq_U_sub_U ℝ (2 * s - 2))
    simp only [eval_mul, eval_sub, eval_ofNat] at h3
    rw [show ((2 * s : ℤ) - 2 + 2) = 2 * s by ring] at h3
    rw [show ((2 * s : ℤ) + 1 - 1) = 2 * s by ring, show ((2 * s : ℤ) - 1 - 1) = 2 * s - 2 by ring]
    simp only [eval_mul, eval_intCast]
    push_cast
    rw [mul_div_cancel_left₀ _ h1, mul_div_cancel_left₀ _ h2]
    linarith
  rw [intervalIntegral.integral_eq_sub_of_hasDerivAt (fun x _ => hd x)
    ((Polynomial.continuous _).intervalIntegrable _ _)]
  have o1 : ((2 * s + 1 : ℤ).negOnePow : ℤ) = -1 := by
    rw [Int.negOnePow_odd _ ⟨s, rfl⟩]; rfl
  have o2 : ((2 * s - 1 : ℤ).negOnePow : ℤ) = -1 := by
    rw [Int.negOnePow_odd _ ⟨s - 1, by ring⟩]; rfl
  rw [T_eval_one, T_eval_one, T_eval_neg_one, T_eval_neg_one, o1, o2]
  have h3 : 1 - 4 * (s : ℝ) ^ 2 ≠ 0 := by
    rw [show 1 - 4 * (s : ℝ) ^ 2 = -((2 * s + 1) * (2 * s - 1)) by ring]
    exact neg_ne_zero.2 (mul_ne_zero h1 h2)
  push_cast
  rw [show 1 - 4 * (s : ℝ) ^ 2 = -((2 * s + 1) * (2 * s - 1)) by ring]
  field_simp
  ring

theorem integral_T_odd (s : ℕ) : ∫ x in (-1 : ℝ)..1, (T ℝ (2 * s + 1 : ℕ)).eval x = 0 := by
  have h := intervalIntegral.integral_comp_neg (a := (-1 : ℝ)) (b := 1) (fun x => (T ℝ (2 * s + 1 : ℕ)).eval x)
  rw [neg_neg] at h
  have : ∀ x : ℝ, (T ℝ (2 * s + 1 : ℕ)).eval (-x) = - (T ℝ (2 * s + 1 : ℕ)).eval x := by
    intro x
    rw [T_eval_neg, Int.negOnePow_odd _ ⟨s, by push_cast; ring⟩]
    push_cast
    ring
  simp only [this, intervalIntegral.integral_neg] at h
  linarith

/-- two linear functionals that agree on the Chebyshev polynomials agree -/
theorem agree {L R : ℝ[X] →ₗ[ℝ] ℝ} : ∀ d : ℕ, (∀ i < d, L (T ℝ (i : ℕ)) = R (T ℝ (i : ℕ))) →
    ∀ q : ℝ[X], q.degree < d → L q = R q := by
  intro d
  induction d with
  | zero =>
    intro _ q hq
    have : q = 0 := by
      rw [← degree_eq_bot]
      by_contra h
      have := (degree_eq_natDegree (fun h0 => h (by rw [h0, degree_zero])) : q.degree = _)
      rw [this] at hq
      exact absurd (by exact_mod_cast hq : q.natDegree < 0) (by omega)
    rw [this, map_zero, map_zero]
  | succ d ih =>
    intro h q hq
    have hT : (T ℝ (d : ℕ)).natDegree = d := by rw [natDegree_T]; simp
    have hl : (T ℝ (d : ℕ)).coeff d ≠ 0 := by
      have h1 : (T ℝ (d : ℕ)).leadingCoeff ≠ 0 := leadingCoeff_ne_zero.2 (T_ne_zero ℝ _)
      rw [leadingCoeff, hT] at h1
      exact h1
    set c := q.coeff d / (T ℝ (d : ℕ)).coeff d with hc
    have hr : (q - c • T ℝ (d : ℕ)).degree < d := by
      rw [degree_lt_iff_coeff_zero]
      intro m hm
      rw [coeff_sub, coeff_smul, smul_eq_mul]
      rcases Nat.lt_or_ge d m with h1 | h1
      · rw [(degree_lt_iff_coeff_zero q (d + 1)).1 (by exact_mod_cast hq) m h1,
          coeff_eq_zero_of_natDegree_lt (by rw [hT]; exact h1)]
        ring
      · have : m = d := le_antisymm h1 hm
        subst this
        rw [hc, div_mul_cancel₀ _ hl, sub_self]
    have h1 := ih (fun i hi => h i (by omega)) _ hr
    have h2 := h d (by omega)
    rw [map_sub, map_sub, map_smul, map_smul, h2] at h1
    linarith

/-- the rule on the standard interval as a linear functional -/
noncomputable def ruleL (M : ℕ) (w : ℕ → ℝ) : ℝ[X] →ₗ[ℝ] ℝ where
  toFun q := ∑ k ∈ range (M + 1), w k * q.eval (-cos (k * π / M))
  map_add' p q := by simp only [eval_add, mul_add, sum_add_distrib]
  map_smul' c q := by
    simp only [eval_smul, smul_eq_mul, RingHom.id_apply, mul_sum]
    exact sum_congr rfl fun k _ => by ring

/-- the integral over the standard interval as a linear functional -/
noncomputable def intL : ℝ[X] →ₗ[ℝ] ℝ where
  toFun q := ∫ x in (-1 : ℝ)..1, q.eval x
  map_add' p q := by
    simp only [eval_add]
    exact intervalIntegral.integral_add ((Polynomial.continuous _).intervalIntegrable _ _)
      ((Polynomial.continuous _).intervalIntegrable _ _)
  map_smul' c q := by
    simp only [eval_smul, smul_eq_mul, RingHom.id_apply]
    exact intervalIntegral.integral_const_mul _ _

theorem eval_T_neg_cos (i : ℕ) (θ : ℝ) : (T ℝ (i : ℕ)).eval (-cos θ) = (-1) ^ i * cos (i * θ) := by
  rw [T_eval_neg, T_real_cos]
  congr 1
  rcases Nat.even_or_odd i with h | h
  · rw [Int.negOnePow_even _ (by exact_mod_cast h), h.neg_one_pow]; simp
  · rw [Int.negOnePow_odd _ (by exact_mod_cast h), h.neg_one_pow]; simp

theorem rule_T_odd {M : ℕ} (hM : 0 < M) (w : ℕ → ℝ) (hw : ∀ k ≤ M, w (M - k) = w k) (s : ℕ) :
    ruleL M w (T ℝ (2 * s + 1 : ℕ)) = 0 := by
  have hM' : (M : ℝ) ≠ 0 := by exact_mod_cast hM.ne'
  show ∑ k ∈ range (M + 1), w k * (T ℝ (2 * s + 1 : ℕ)).eval (-cos (k * π / M)) = 0
  have h := sum_range_reflect (fun k => w k * (T ℝ (2 * s + 1 : ℕ)).eval (-cos (k * π / M))) (M + 1)
  have h2 : ∀ k ∈ range (M + 1), w (M + 1 - 1 - k) * (T ℝ (2 * s + 1 : ℕ)).eval (-cos ((M + 1 - 1 - k : ℕ) * π / M))
      = -(w k * (T ℝ (2 * s + 1 : ℕ)).eval (-cos (k * π / M))) := by
    intro k hk
    rw [mem_range] at hk
    rw [Nat.add_sub_cancel, hw k (by omega), Nat.cast_sub (by omega)]
    rw [show ((M : ℝ) - k) * π / M = π - k * π / M by field_simp, cos_pi_sub, T_eval_neg ℝ _ (-cos _),
      Int.negOnePow_odd _ ⟨s, by push_cast; ring⟩]
    push_cast
    ring
  rw [sum_congr rfl h2, sum_neg_distrib] at h
  linarith

theorem rule_T_even {M : ℕ} (hM : 0 < M) (u : ℕ → ℝ) (hu : ∀ j, 1 ≤ j → j < M → u (M - j) = u j) {s : ℕ}
    (hs : s < M) : ruleL M (wt M u) (T ℝ (2 * s : ℕ)) = u s + wt M u 0 := by
  have hM' : (M : ℝ) ≠ 0 := by exact_mod_cast hM.ne'
  show ∑ k ∈ range (M + 1), wt M u k * (T ℝ (2 * s : ℕ)).eval (-cos (k * π / M)) = _
  have h : ∀ k ∈ range (M + 1), wt M u k * (T ℝ (2 * s : ℕ)).eval (-cos (k * π / M))
      = wt M u k * cos (2 * π * s * k / M) := by
    intro k _
    rw [eval_T_neg_cos, pow_mul, neg_one_sq, one_pow, one_mul]
    congr 2
    push_cast
    field_simp
  rw [sum_congr rfl h, sum_range_succ, sum_wt_cos hM u hu hs, wt_last hM]
  rw [show 2 * π * s * M / M = s * (2 * π) by field_simp, cos_nat_mul_two_pi, mul_one]

/-- The rule with the right Fourier coefficients integrates polynomials of degree at most `d` exactly. -/
theorem rule_exact {M : ℕ} (u : ℕ → ℝ) (hu : ∀ j, 1 ≤ j → j < M → u (M - j) = u j) {d : ℕ} (hd : d / 2 < M)
    (hv : ∀ s, 2 * s ≤ d → u s + wt M u 0 = 2 / (1 - 4 * (s : ℝ) ^ 2)) (q : ℝ[X]) (hq : q.natDegree ≤ d) :
    ∑ k ∈ range (M + 1), wt M u k * q.eval (-cos (k * π / M)) = ∫ x in (-1 : ℝ)..1, q.eval x := by
  have hM : 0 < M := by omega
  refine agree (L := ruleL M (wt M u)) (R := intL) (d + 1) ?_ q ?_
  · intro i hi
    rcases Nat.even_or_odd' i with ⟨s, rfl | rfl⟩
    · rw [rule_T_even hM u hu (by omega), hv s (by omega)]
      exact (integral_T_even s).symm
    · rw [rule_T_odd hM _ (fun k hk => wt_reflect hM u hk)]
      exact (integral_T_odd s).symm
  · exact lt_of_le_of_lt (degree_le_of_natDegree_le hq) (by exact_mod_cast Nat.lt_succ_self d)

end Rule
end Pacal
