import Verif.Nodes.Bary

/-! Helper lemmas for C41: the closed-form weights of the Chebyshev interpolators are proportional to the
nodal weights of their grids. -/

namespace Pacal
namespace Nodes
open Polynomial Polynomial.Chebyshev Real

/-- `cos(kπ/N)`, `N = M + 1` -/
noncomputable def cN (M k : ℕ) : ℝ := cos ((k : ℝ) * π / ((M : ℝ) + 1))

theorem cN_lt {M i j : ℕ} (hij : i < j) (hj : j ≤ M + 1) : cN M j < cN M i := by
  have hM : (0 : ℝ) < (M : ℝ) + 1 := by positivity
  apply Real.cos_lt_cos_of_nonneg_of_le_pi
  · positivity
  · rw [div_le_iff₀ hM]
    have : (j : ℝ) ≤ (M : ℝ) + 1 := by exact_mod_cast hj
    nlinarith [Real.pi_pos]
  · apply div_lt_div_of_pos_right _ hM
    exact mul_lt_mul_of_pos_right (by exact_mod_cast hij) Real.pi_pos

theorem cN_inj {M i j : ℕ} (hi : i ≤ M + 1) (hj : j ≤ M + 1) (h : cN M i = cN M j) : i = j := by
  rcases lt_trichotomy i j with hl | hl | hl
  · exact absurd h (cN_lt hl hj).ne'
  · exact hl
  · exact absurd h (cN_lt hl hi).ne

theorem cN_zero (M : ℕ) : cN M 0 = 1 := by simp [cN]
theorem cN_last (M : ℕ) : cN M (M + 1) = -1 := by
  have : (M : ℝ) + 1 ≠ 0 := by positivity
  unfold cN
  rw [show ((M + 1 : ℕ) : ℝ) * π / ((M : ℝ) + 1) = π by push_cast; field_simp, cos_pi]

theorem T_cN (M k : ℕ) : (T ℝ ((M : ℤ) + 1)).eval (cN M k) = (-1) ^ k := by
  have : (M : ℝ) + 1 ≠ 0 := by positivity
  unfold cN
  rw [T_real_cos]
  push_cast
  rw [show ((M : ℝ) + 1) * ((k : ℝ) * π / ((M : ℝ) + 1)) = k * π by field_simp]
  exact Real.cos_nat_mul_pi k

theorem U_cN {M k : ℕ} (h0 : k ≠ 0) (hk : k < M + 1) : (U ℝ (M : ℤ)).eval (cN M k) = 0 := by
  have hM : (0 : ℝ) < (M : ℝ) + 1 := by positivity
  have h := U_real_cos ((k : ℝ) * π / ((M : ℝ) + 1)) (M : ℤ)
  push_cast at h
  rw [show ((M : ℝ) + 1) * ((k : ℝ) * π / ((M : ℝ) + 1)) = k * π by field_simp, Real.sin_nat_mul_pi] at h
  refine (mul_eq_zero.1 h).resolve_right (ne_of_gt ?_)
  apply Real.sin_pos_of_pos_of_lt_pi
  · have : (0 : ℝ) < k := by exact_mod_cast Nat.pos_of_ne_zero h0
    have := Real.pi_pos
    positivity
  · rw [div_lt_iff₀ hM]
    have : (k : ℝ) < (M : ℝ) + 1 := by exact_mod_cast hk
    nlinarith [Real.pi_pos]

/-- the polynomial vanishing at all nodes of the second kind -/
noncomputable def full (M : ℕ) : ℝ[X] := (X ^ 2 - 1) * U ℝ (M : ℤ)

/-- 2 at the two ends, 1 inside -/
noncomputable def dN (M k : ℕ) : ℝ := if k = 0 ∨ k = M + 1 then 2 else 1

theorem dN_ne (M k : ℕ) : dN M k ≠ 0 := by unfold dN; split <;> norm_num

theorem full_eval {M k : ℕ} (hk : k ≤ M + 1) : (full M).eval (cN M k) = 0 := by
  unfold full
  rw [eval_mul]
  by_cases h0 : k = 0
  · subst h0; simp [cN_zero]
  · by_cases h1 : k = M + 1
    · subst h1; simp [cN_last]
    · rw [U_cN h0 (by omega), mul_zero]

theorem full_deriv {M k : ℕ} (hk : k ≤ M + 1) :
    (derivative (full M)).eval (cN M k) = ((M : ℝ) + 1) * (-1) ^ k * dN M k := by
  have e : derivative (full M) = X * U ℝ (M : ℤ) + ((M : ℤ) + 1 : ℝ[X]) * T ℝ ((M : ℤ) + 1) := by
    have := add_one_mul_T_eq_poly_in_U (R := ℝ) (M : ℤ)
    unfold full
    rw [derivative_mul]
    simp only [derivative_sub, derivative_X_pow, derivative_one]
    push_cast at this ⊢
    rw [show (C (2 : ℝ) : ℝ[X]) = 2 from rfl]
    linear_combination -this
  rw [e, eval_add, eval_mul, eval_mul, T_cN]
  simp only [eval_X, eval_add, eval_one, Int.cast_natCast, eval_natCast]
  unfold dN
  by_cases h0 : k = 0
  · subst h0
    rw [cN_zero, U_eval_one]
    simp; ring
  · by_cases h1 : k = M + 1
    · subst h1
      rw [cN_last, U_eval_neg_one]
      simp [Int.negOnePow_def, pow_succ]; ring
    · rw [U_cN h0 (by omega), if_neg (by omega)]
      ring

theorem full_degree (M : ℕ) : (full M).degree = ((M + 2 : ℕ) : WithBot ℕ) := by
  unfold full
  rw [degree_mul, degree_U_natCast, show (X ^ 2 - 1 : ℝ[X]) = X ^ 2 - C 1 by simp,
    degree_X_pow_sub_C (by norm_num)]
  push_cast
  rw [add_comm]

theorem injOn_cN (M : ℕ) : Set.InjOn (cN M) (Finset.range (M + 2)) := by
  intro i hi j hj h
  simp only [Finset.coe_range, Set.mem_Iio] at hi hj
  exact cN_inj (by omega) (by omega) h

theorem neg_one_pow_inv (k : ℕ) : ((-1 : ℝ) ^ k)⁻¹ = (-1) ^ k := by
  rcases neg_one_pow_eq_or ℝ k with h | h <;> rw [h] <;> norm_num

theorem lead_ne {R : ℝ[X]} {n : ℕ} (h : R.degree = n) : R.leadingCoeff ≠ 0 := by
  apply leadingCoeff_ne_zero.2
  rintro rfl
  simp at h

theorem prop_cheb (M : ℕ) : Prop' (M + 2) (cN M) fun k => -(-1) ^ k / dN M k := by
  have hl := lead_ne (full_degree M)
  have hM : (M : ℝ) + 1 ≠ 0 := by positivity
  refine ⟨-((M : ℝ) + 1) / (full M).leadingCoeff, div_ne_zero (neg_ne_zero.2 hM) hl, fun k hk => ?_⟩
  rw [nodalWeight_of_poly (injOn_cN M) (full_degree M) (fun i hi => full_eval (by omega)) hk,
    full_deriv (by omega)]
  have := dN_ne M k
  have h1 : ((-1 : ℝ) ^ k) ≠ 0 := pow_ne_zero _ (by norm_num)
  have h2 : ((-1 : ℝ) ^ k) * (-1) ^ k = 1 := by rw [← mul_pow]; norm_num
  field_simp
  linear_combination -h2

/-- without the first node `cos 0 = 1` -/
theorem prop_noL (M : ℕ) : Prop' (M + 1) (fun j => cN M (j + 1)) fun j =>
    (-1) ^ (j + 1) * (cN M (j + 1) - 1) / dN M (j + 1) := by
  obtain ⟨R, hR⟩ : ∃ R : ℝ[X], R = (X + 1) * U ℝ (M : ℤ) := ⟨_, rfl⟩
  have hfull : full M = (X - C 1) * R := by rw [full, hR, C_1]; ring
  have hd : R.degree = ((M + 1 : ℕ) : WithBot ℕ) := by
    rw [hR, degree_mul, degree_U_natCast, show (X + 1 : ℝ[X]) = X + C 1 by simp, degree_X_add_C]
    push_cast; rw [add_comm]
  have hl := lead_ne hd
  have hM : (M : ℝ) + 1 ≠ 0 := by positivity
  have hc : ∀ j, j < M + 1 → cN M (j + 1) - 1 ≠ 0 := fun j hj => by
    have := cN_lt (M := M) (i := 0) (j := j + 1) (by omega) (by omega)
    rw [cN_zero] at this; linarith
  have h0 : ∀ j, j < M + 1 → R.eval (cN M (j + 1)) = 0 := fun j hj => by
    have := full_eval (M := M) (k := j + 1) (by omega)
    rw [hfull, eval_mul, eval_sub, eval_X, eval_C] at this
    exact (mul_eq_zero.1 this).resolve_left (hc j hj)
  refine ⟨((M : ℝ) + 1) / R.leadingCoeff, div_ne_zero hM hl, fun j hj => ?_⟩
  have hinj : Set.InjOn (fun j => cN M (j + 1)) (Finset.range (M + 1)) := by
    intro i hi k hk h
    simp only [Finset.coe_range, Set.mem_Iio] at hi hk
    have := cN_inj (by omega) (by omega) h
    omega
  rw [nodalWeight_of_poly hinj hd h0 hj]
  have hder := full_deriv (M := M) (k := j + 1) (by omega)
  rw [hfull, derivative_mul, eval_add, eval_mul, eval_mul, h0 j hj, mul_zero, zero_add, eval_sub, eval_X, eval_C] at hder
  have h1 : ((-1 : ℝ) ^ (j + 1)) ≠ 0 := pow_ne_zero _ (by norm_num)
  have h2 : ((-1 : ℝ) ^ (j + 1)) * (-1) ^ (j + 1) = 1 := by rw [← mul_pow]; norm_num
  have hdd : (derivative R).eval (cN M (j + 1)) = ((M : ℝ) + 1) * (-1) ^ (j + 1) * dN M (j + 1) / (cN M (j + 1) - 1) := by
    rw [eq_div_iff (hc j hj)]; linarith
  rw [hdd]
  have := dN_ne M (j + 1)
  have := hc j hj
  field_simp
  linear_combination h2

/-- without the last node `cos π = -1` -/
theorem prop_noR (M : ℕ) : Prop' (M + 1) (cN M) fun j => (-1) ^ j * (cN M j + 1) / dN M j := by
  obtain ⟨R, hR⟩ : ∃ R : ℝ[X], R = (X - 1) * U ℝ (M : ℤ) := ⟨_, rfl⟩
  have hfull : full M = (X + C 1) * R := by rw [full, hR, C_1]; ring
  have hd : R.degree = ((M + 1 : ℕ) : WithBot ℕ) := by
    rw [hR, degree_mul, degree_U_natCast, show (X - 1 : ℝ[X]) = X - C 1 by simp, degree_X_sub_C]
    push_cast; rw [add_comm]
  have hl := lead_ne hd
  have hM : (M : ℝ) + 1 ≠ 0 := by positivity
  have hc : ∀ j, j < M + 1 → cN M j + 1 ≠ 0 := fun j hj => by
    have := cN_lt (M := M) (i := j) (j := M + 1) (by omega) (by omega)
    rw [cN_last] at this; linarith
  have h0 : ∀ j, j < M + 1 → R.eval (cN M j) = 0 := fun j hj => by
    have := full_eval (M := M) (k := j) (by omega)
    rw [hfull, eval_mul, eval_add, eval_X, eval_C] at this
    exact (mul_eq_zero.1 this).resolve_left (hc j hj)
  refine ⟨((M : ℝ) + 1) / R.leadingCoeff, div_ne_zero hM hl, fun j hj => ?_⟩
  have hinj : Set.InjOn (cN M) (Finset.range (M + 1)) := by
    intro i hi k hk h
    simp only [Finset.coe_range, Set.mem_Iio] at hi hk
    exact cN_inj (by omega) (by omega) h
  rw [nodalWeight_of_poly hinj hd h0 hj]
  have hder := full_deriv (M := M) (k := j) (by omega)
  rw [hfull, derivative_mul, eval_add, eval_mul, eval_mul, h0 j hj, mul_zero, zero_add, eval_add, eval_X, eval_C] at hder
  have h1 : ((-1 : ℝ) ^ j) ≠ 0 := pow_ne_zero _ (by norm_num)
  have h2 : ((-1 : ℝ) ^ j) * (-1) ^ j = 1 := by rw [← mul_pow]; norm_num
  have hdd : (derivative R).eval (cN M j) = ((M : ℝ) + 1) * (-1) ^ j * dN M j / (cN M j + 1) := by
    rw [eq_div_iff (hc j hj)]; linarith
  rw [hdd]
  have := dN_ne M j
  have := hc j hj
  field_simp
  linear_combination h2

/-! ### first kind -/

/-- angle of the `i`-th of `n` nodes of the first kind -/
noncomputable def ang (n i : ℕ) : ℝ := ((2 * i + 1 : ℕ) : ℝ) * π / (2 * (n : ℝ))

theorem sin_ang_pos {n i : ℕ} (hi : i < n) : 0 < sin (ang n i) :=
  Real.sin_pos_of_pos_of_lt_pi (angle1_pos hi) (angle1_lt hi)

theorem mul_ang {n : ℕ} (hn : 1 ≤ n) (i : ℕ) : (n : ℝ) * ang n i = (i : ℝ) * π + π / 2 := by
  have : (n : ℝ) ≠ 0 := by
    have : (1 : ℝ) ≤ n := by exact_mod_cast hn
    linarith
  unfold ang
  push_cast
  field_simp

theorem prop_cheb1 {n : ℕ} (hn : 1 ≤ n) : Prop' n (fun i => cos (ang n i)) fun i => (-1) ^ i * sin (ang n i) := by
  have hn0 : (n : ℝ) ≠ 0 := by
    have : (1 : ℝ) ≤ n := by exact_mod_cast hn
    linarith
  have hd : (T ℝ (n : ℤ)).degree = ((n : ℕ) : WithBot ℕ) := by rw [degree_T]; simp
  have hl := lead_ne hd
  have hinj : Set.InjOn (fun i => cos (ang n i)) (Finset.range n) := by
    intro i hi j hj h
    simp only [Finset.coe_range, Set.mem_Iio] at hi hj
    have := Real.injOn_cos ⟨(angle1_pos hi).le, (angle1_lt hi).le⟩ ⟨(angle1_pos hj).le, (angle1_lt hj).le⟩ h
    have h' : (n : ℝ) * ang n i = n * ang n j := congrArg _ this
    rw [mul_ang hn, mul_ang hn] at h'
    have : (i : ℝ) = j := by
      have : ((i : ℝ) - j) * π = 0 := by linarith
      rcases mul_eq_zero.1 this with h | h
      · linarith
      · exact absurd h Real.pi_pos.ne'
    exact_mod_cast this
  have h0 : ∀ i, i < n → (T ℝ (n : ℤ)).eval (cos (ang n i)) = 0 := fun i _ => by
    rw [T_real_cos]
    push_cast
    rw [mul_ang hn, Real.cos_add_pi_div_two, Real.sin_nat_mul_pi, neg_zero]
  refine ⟨(n : ℝ) / (T ℝ (n : ℤ)).leadingCoeff, div_ne_zero hn0 hl, fun i hi => ?_⟩
  rw [nodalWeight_of_poly hinj hd h0 hi]
  have hs := (sin_ang_pos hi).ne'
  have hu : (U ℝ ((n : ℤ) - 1)).eval (cos (ang n i)) * sin (ang n i) = (-1) ^ i := by
    rw [U_real_cos]
    push_cast
    rw [show ((n : ℝ) - 1 + 1) = n by ring, mul_ang hn, Real.sin_add_pi_div_two, Real.cos_nat_mul_pi]
  have hder : (derivative (T ℝ (n : ℤ))).eval (cos (ang n i)) = n * ((-1) ^ i / sin (ang n i)) := by
    rw [T_derivative_eq_U, eval_mul]
    simp only [Int.cast_natCast, eval_natCast]
    rw [← hu, mul_div_cancel_right₀ _ hs]
  rw [hder]
  have h1 : ((-1 : ℝ) ^ i) ≠ 0 := pow_ne_zero _ (by norm_num)
  have h2 : ((-1 : ℝ) ^ i) * (-1) ^ i = 1 := by rw [← mul_pow]; norm_num
  field_simp
  linear_combination h2

/-! ### the weights of the code -/

theorem alt_sign (i : ℕ) : (if i % 2 = 0 then (-1 : ℝ) else 1) = -(-1) ^ i := by
  rcases Nat.even_or_odd i with h | h
  · rw [if_pos (Nat.even_iff.1 h), h.neg_one_pow]
  · rw [if_neg (by rw [Nat.odd_iff.1 h]; norm_num), h.neg_one_pow]; norm_num

theorem alt_sign1 (i : ℕ) : (if i % 2 = 1 then (-1 : ℝ) else 1) = (-1) ^ i := by
  rcases Nat.even_or_odd i with h | h
  · rw [if_neg (by rw [Nat.even_iff.1 h]; norm_num), h.neg_one_pow]
  · rw [if_pos (Nat.odd_iff.1 h), h.neg_one_pow]

theorem chebWeights_eq (M : ℕ) :
    chebWeights (M + 2) = (List.range (M + 2)).map fun k => -(-1) ^ k / dN M k := by
  unfold chebWeights alt
  apply List.ext_getElem (by simp)
  intro i h1 h2
  simp only [List.getElem_modify, List.getElem_map, List.getElem_range, alt_sign]
  unfold dN
  by_cases h0 : i = 0
  · subst h0; simp
  · by_cases h3 : i = M + 1
    · subst h3; simp
    · rw [if_neg (by omega), if_neg (by omega), if_neg (by omega), div_one]

theorem cheb1Weights_eq (n : ℕ) :
    cheb1Weights n = (List.range n).map fun i => (-1) ^ i * sin (ang n i) := by
  unfold cheb1Weights
  apply List.map_congr_left
  intro i _
  rw [← alt_sign1 i]
  split
  · rfl
  · rw [one_mul]; rfl

theorem two_sin_sq (t : ℝ) : 2 * sin (t / 2) ^ 2 = 1 - cos t := by
  have := Real.cos_sq' (t / 2)
  have h2 := Real.cos_two_mul (t / 2)
  rw [show 2 * (t / 2) = t by ring] at h2
  linarith

theorem noLWeights_eq (M : ℕ) : ∃ s : ℝ, s ≠ 0 ∧ noLWeights (M + 1) = (List.range (M + 1)).map fun j =>
    s * ((-1) ^ (j + 1) * (cN M (j + 1) - 1) / dN M (j + 1)) := by
  refine ⟨(-1) ^ (M + 1), pow_ne_zero _ (by norm_num), ?_⟩
  unfold noLWeights alt
  apply List.ext_getElem (by simp)
  intro j h1 h2
  simp only [List.length_map, List.length_range] at h2
  simp only [List.getElem_reverse, List.getElem_zipWith, List.getElem_modify, List.getElem_map, List.getElem_range,
    List.length_zipWith, List.length_modify, List.length_map, List.length_range, min_self, alt_sign]
  have e : M + 1 - (M + 1 - 1 - j) = j + 1 := by omega
  rw [e, two_sin_sq]
  have ec : cos (((j + 1 : ℕ) : ℝ) * π / ((M + 1 : ℕ) : ℝ)) = cN M (j + 1) := by unfold cN; push_cast; rfl
  rw [ec]
  have es : ((-1 : ℝ) ^ (M + 1 - 1 - j)) = (-1) ^ (M + 1) * (-1) ^ (j + 1) := by
    rw [← pow_add, show M + 1 + (j + 1) = (M + 1 - 1 - j) + 2 * (j + 1) by omega, pow_add, pow_mul]; norm_num
  rw [es]
  unfold dN
  by_cases hj : j = M
  · subst hj
    rw [if_pos (by omega), if_pos (by omega)]; ring
  · rw [if_neg (by omega), if_neg (by omega)]; ring

theorem noRWeights_eq (M : ℕ) : ∃ s : ℝ, s ≠ 0 ∧ noRWeights (M + 1) = (List.range (M + 1)).map fun j =>
    s * ((-1) ^ j * (cN M j + 1) / dN M j) := by
  refine ⟨(-1) ^ M, pow_ne_zero _ (by norm_num), ?_⟩
  unfold noRWeights alt
  apply List.ext_getElem (by simp)
  intro j h1 h2
  simp only [List.length_map, List.length_range] at h2
  simp only [List.getElem_reverse, List.getElem_zipWith, List.getElem_modify, List.getElem_map, List.getElem_range,
    List.length_zipWith, List.length_modify, List.length_map, List.length_range, min_self, alt_sign1]
  have e : M + 1 - 1 - (M + 1 - 1 - j) = j := by omega
  rw [e, show π / 2 - (j : ℝ) * π / ((M + 1 : ℕ) : ℝ) / 2 = (π - (j : ℝ) * π / ((M + 1 : ℕ) : ℝ)) / 2 by ring,
    two_sin_sq, Real.cos_pi_sub]
  have ec : cos ((j : ℝ) * π / ((M + 1 : ℕ) : ℝ)) = cN M j := by unfold cN; push_cast; rfl
  rw [ec]
  have es : ((-1 : ℝ) ^ (M + 1 - 1 - j)) = (-1) ^ M * (-1) ^ j := by
    rw [← pow_add, show M + j = (M + 1 - 1 - j) + 2 * j by omega, pow_add, pow_mul]; norm_num
  rw [es]
  unfold dN
  by_cases hj : j = 0
  · subst hj
    rw [if_pos (by omega), if_pos (by omega)]; ring
  · rw [if_neg (by omega), if_neg (by omega)]; ring

theorem Prop'.smul {n : ℕ} {v w : ℕ → ℝ} (h : Prop' n v w) {s : ℝ} (hs : s ≠ 0) : Prop' n v fun i => s * w i := by
  obtain ⟨c, hc, h⟩ := h
  exact ⟨s * c, mul_ne_zero hs hc, fun i hi => by dsimp only; rw [h i hi, mul_assoc]⟩

end Nodes
end Pacal
