import Verif.Calc.Main
import Mathlib.LinearAlgebra.Eigenspace.Matrix

/-!
C65: derivatives, roots and trimmed forms of interpolated functions.
-/

namespace Pacal
namespace Calc
open Polynomial Polynomial.Chebyshev Nodes

/-- C65, weaker than wanted: `diff()` of an interpolator with `n ≥ 3` Chebyshev nodes computes the derivative plus a term
proportional to the last Chebyshev coefficient of the function. (Wanted: the derivative. See `C65_violated_diff`.) -/
theorem C65_diff_partial {n : ℕ} (hn : 3 ≤ n) {a b : ℝ} (hab : a < b) (p : ℝ[X]) (hp : p.degree < n) (ws : List ℝ) :
    ∃ D, diff2 (sampled n a b p ws) = .ok D ∧ Eval D (derivative p + Polynomial.C (lastCoef p n a b) *
      (derivative (scaledT (n - 1) a b) - Polynomial.C (2 * ((n - 1 : ℕ) : ℝ) * (2 / (b - a))) * scaledT (n - 2) a b)) := by
  obtain ⟨N, rfl⟩ : ∃ N, n = N + 1 := ⟨n - 1, by omega⟩
  obtain ⟨D, h1, hs, h2⟩ := diff2_formula (N := N) (by omega) hab p hp ws
  refine ⟨D, h1, fun x => ?_⟩
  rw [h2 x]
  simp only [eval_add, eval_mul, eval_sub, eval_C, Nat.add_sub_cancel, show N + 1 - 2 = N - 1 by omega]

/-- C65: the error of `diff()` on the interval is bounded by the last Chebyshev coefficient -/
theorem C65_diff_error {n : ℕ} (hn : 3 ≤ n) {a b : ℝ} (hab : a < b) (p : ℝ[X]) (hp : p.degree < n) (ws : List ℝ) :
    ∃ D, diff2 (sampled n a b p ws) = .ok D ∧ ∀ x, a ≤ x → x ≤ b → ∃ y, D.at x = .ok y ∧
      |y - (derivative p).eval x| ≤ |lastCoef p n a b| * (2 / (b - a) * (((n : ℝ) - 1) ^ 2 + 2 * ((n : ℝ) - 1))) := by
  obtain ⟨N, rfl⟩ : ∃ N, n = N + 1 := ⟨n - 1, by omega⟩
  obtain ⟨D, h1, hs, h2⟩ := diff2_formula (N := N) (by omega) hab p hp ws
  refine ⟨D, h1, fun x ha hb => ⟨_, h2 x, ?_⟩⟩
  have hba : 0 < b - a := sub_pos.2 hab
  rw [add_sub_cancel_left, abs_mul]
  refine mul_le_mul_of_nonneg_left ?_ (abs_nonneg _)
  refine (abs_sub _ _).trans ?_
  have h3 := scaledT_deriv_abs N hab ha hb
  have h4 : |(scaledT (N - 1) a b).eval x| ≤ 1 := by
    rw [scaledT_eval]; exact T_abs_le _ (std_abs_le hab ha hb)
  rw [abs_mul, abs_of_nonneg (by positivity : (0 : ℝ) ≤ 2 * (N : ℝ) * (2 / (b - a)))]
  have h5 : 2 * (N : ℝ) * (2 / (b - a)) * |(scaledT (N - 1) a b).eval x| ≤ 2 * (N : ℝ) * (2 / (b - a)) * 1 :=
    mul_le_mul_of_nonneg_left h4 (by positivity)
  push_cast
  rw [show ((N : ℝ) + 1 - 1) = N by ring]
  nlinarith

/-- C65: `diff()` is the derivative exactly if there are three nodes or the degree is below the maximal one -/
theorem C65_diff_iff {n : ℕ} (hn : 3 ≤ n) {a b : ℝ} (hab : a < b) (p : ℝ[X]) (hp : p.degree < n) (ws : List ℝ) :
    (∃ D, diff2 (sampled n a b p ws) = .ok D ∧ Eval D (derivative p)) ↔ n = 3 ∨ p.coeff (n - 1) = 0 := by
  obtain ⟨N, rfl⟩ : ∃ N, n = N + 1 := ⟨n - 1, by omega⟩
  obtain ⟨D, h1, hs, h2⟩ := diff2_formula (N := N) (by omega) hab p hp ws
  have hba : 0 < b - a := sub_pos.2 hab
  have hb1 : (2 * b - a - b) / (b - a) = 1 := by
    rw [div_eq_one_iff_eq hba.ne']; ring
  have hTN : (derivative (scaledT N a b)).eval b = 2 / (b - a) * (N : ℝ) ^ 2 := by
    rw [scaledT_eq, comp_deriv, eval_mul, eval_C, eval_comp, eval_toStd, hb1, derivative_T_eval_one]
    simp
  have hT1 : (scaledT (N - 1) a b).eval b = 1 := by
    rw [scaledT_eval, hb1, T_eval_one]
  constructor
  · rintro ⟨D', h3, h4⟩
    rw [h1] at h3
    obtain rfl : D = D' := Except.ok.inj h3
    have h5 := h2 b
    rw [h4 b] at h5
    have h6 := Except.ok.inj h5
    rw [hTN, hT1] at h6
    have h7 : lastCoef p (N + 1) a b * (2 / (b - a) * ((N : ℝ) * ((N : ℝ) - 2))) = 0 := by
      have : (derivative p).eval b - (derivative p).eval b = 0 := sub_self _
      linarith
    rcases mul_eq_zero.1 h7 with h8 | h8
    · right
      unfold lastCoef at h8
      exact (div_eq_zero_iff.1 h8).resolve_right (scaledT_coeff_ne N hab)
    · left
      have h9 : (2 / (b - a)) ≠ 0 := by positivity
      rcases mul_eq_zero.1 h8 with h10 | h10
      · exact (h9 h10).elim
      · rcases mul_eq_zero.1 h10 with h11 | h11
        · have : N = 0 := by exact_mod_cast h11
          omega
        · have : (N : ℝ) = 2 := by linarith
          have : N = 2 := by exact_mod_cast this
          omega
  · rintro (h | h)
    · refine ⟨D, h1, fun x => ?_⟩
      have hN : N = 2 := by omega
      subst hN
      rw [h2 x, scaledT_eq, comp_deriv, scaledT_eval, eval_mul, eval_C, eval_comp, eval_toStd]
      simp [T_two]
      right
      ring
    · refine ⟨D, h1, fun x => ?_⟩
      rw [h2 x]
      rw [show N + 1 - 1 = N from rfl] at h
      simp [lastCoef, h]

/-- `x ** 3` with five nodes has the right derivative -/
example : ∃ D, diff2 (sampled 5 0 2 (X ^ 3) (chebWeights 5)) = .ok D ∧ Eval D (derivative (X ^ 3)) :=
  (C65_diff_iff (by norm_num) (by norm_num) _ (by rw [degree_X_pow]; exact_mod_cast (by norm_num : 3 < 5)) _).2
    (Or.inr (by simp [coeff_X_pow]))

/-- C65: `diff(use_2nd=False)`, used by the interpolators on other grids, computes the derivative -/
theorem C65_diff_resampled (I : Bary) (p : ℝ[X]) (hI : Eval I p) (hp : p.degree < I.xs.length) {x₀ x₁ : ℝ}
    (h0 : I.xs.head? = some x₀) (h1 : I.xs.getLast? = some x₁) (h : x₀ < x₁) :
    ∃ D, diff1 I = .ok D ∧ Eval D (derivative p) := by
  have hl : 1 ≤ I.xs.length := by
    cases hx : I.xs with
    | nil => rw [hx] at h0; simp at h0
    | cons _ _ => simp
  have hd : p.degree < ((I.xs.length + 2 : ℕ) : WithBot ℕ) :=
    hp.trans (by exact_mod_cast (by omega : I.xs.length < I.xs.length + 2))
  have := (C65_diff_iff (n := I.xs.length + 2) (by omega) h p hd (chebWeights (I.xs.length + 2))).2
    (Or.inr ((degree_lt_iff_coeff_zero p I.xs.length).1 hp _ (by omega)))
  unfold diff1
  rw [h0, h1]
  simp only
  rw [mapM_at hI]
  simp only [Bind.bind, Except.bind]
  rw [onCheb_sampled (by omega) h]
  exact this

/-- C65: the derivative of the interpolators without the left end, without the right end and with the open grid -/
theorem C65_diff_other_grids {n : ℕ} {a b : ℝ} (hab : a < b) (p : ℝ[X]) :
    (3 ≤ n → p.degree < ((n - 1 : ℕ) : WithBot ℕ) → ∃ D, diff1 ⟨(cheb n a b).tail, (cheb n a b).tail.map fun x => p.eval x,
        noLWeights (n - 1)⟩ = .ok D ∧ Eval D (derivative p)) ∧
    (3 ≤ n → p.degree < ((n - 1 : ℕ) : WithBot ℕ) → ∃ D, diff1 ⟨(cheb n a b).dropLast, (cheb n a b).dropLast.map fun x => p.eval x,
        noRWeights (n - 1)⟩ = .ok D ∧ Eval D (derivative p)) ∧
    (2 ≤ n → p.degree < n → ∃ D, diff1 ⟨cheb1 n a b, (cheb1 n a b).map fun x => p.eval x, cheb1Weights n⟩ = .ok D ∧
        Eval D (derivative p)) := by
  have ends : ∀ (f : ℕ → ℝ) (m : ℕ), 2 ≤ m → ((List.range m).map f).head? = some (f 0) ∧
      ((List.range m).map f).getLast? = some (f (m - 1)) := by
    intro f m hm
    obtain ⟨k, rfl⟩ : ∃ k, m = k + 1 := ⟨m - 1, by omega⟩
    constructor
    · rw [List.range_succ_eq_map]; simp
    · rw [List.range_succ, List.map_append]; simp
  refine ⟨fun hn hp => ?_, fun hn hp => ?_, fun hn hp => ?_⟩
  · have e1 : (cheb n a b).tail = (List.range (n - 1)).map fun j => nodeAt n a b (j + 1) := by
      rw [cheb_eq (by omega)]
      apply List.ext_getElem (by simp)
      intro i h1 h2
      simp
    have hlen : (cheb n a b).tail.length = n - 1 := by rw [e1]; simp
    have he := ends (fun j => nodeAt n a b (j + 1)) (n - 1) (by omega)
    rw [← e1] at he
    refine C65_diff_resampled _ p (fun x => ?_) (by simpa [hlen] using hp) he.1 he.2 ?_
    · exact (C41_cheb_noL (by omega) hab _ p ⟨by rwa [hlen], rfl⟩ x).1
    · exact nodeAt_lt hab (by omega) (by omega)
  · have e1 : (cheb n a b).dropLast = (List.range (n - 1)).map fun j => nodeAt n a b j := by
      rw [cheb_eq (by omega)]
      apply List.ext_getElem (by simp)
      intro i h1 h2
      simp
    have hlen : (cheb n a b).dropLast.length = n - 1 := by rw [e1]; simp
    have he := ends (fun j => nodeAt n a b j) (n - 1) (by omega)
    rw [← e1] at he
    refine C65_diff_resampled _ p (fun x => ?_) (by simpa [hlen] using hp) he.1 he.2 ?_
    · exact (C41_cheb_noR (by omega) hab _ p ⟨by rwa [hlen], rfl⟩ x).1
    · exact nodeAt_lt hab (by omega) (by omega)
  · have hlen : (cheb1 n a b).length = n := by rw [cheb1_eq]; simp
    have he := ends (nodeAt1 n a b) n hn
    rw [← cheb1_eq] at he
    refine C65_diff_resampled _ p (fun x => ?_) (by simpa [hlen] using hp) he.1 he.2 ?_
    · exact (C41_cheb1 (by omega) hab _ p ⟨by rwa [hlen], rfl⟩ x).1
    · exact nodeAt1_lt hab (by omega) (by omega)

example : ∃ D, diff1 ⟨cheb1 4 0 1, (cheb1 4 0 1).map fun x => (X ^ 3 : ℝ[X]).eval x, cheb1Weights 4⟩ = .ok D ∧
    Eval D (derivative (X ^ 3)) :=
  (C65_diff_other_grids (by norm_num) _).2.2 (by norm_num) (by rw [degree_X_pow]; exact_mod_cast (by norm_num : 3 < 4))

/-- `diff()` of `x ** 4` on `[-1, 1]`, interpolated with 5 nodes (which represent it exactly), is `4 * x ** 3 + x`
instead of `4 * x ** 3`: `chebt2` doubles the last coefficient of the expansion -/
theorem C65_violated_diff (ws : List ℝ) :
    ∃ D, diff2 (sampled 5 (-1) 1 (X ^ 4) ws) = .ok D ∧ Eval D (4 * X ^ 3 + X) := by
  obtain ⟨D, h1, h2⟩ := C65_diff_partial (n := 5) (by norm_num) (show (-1 : ℝ) < 1 by norm_num) (X ^ 4)
    (by rw [degree_X_pow]; exact_mod_cast (by norm_num : 4 < 5)) ws
  refine ⟨D, h1, fun x => ?_⟩
  rw [h2 x]
  have hT4 : T ℝ ((4 : ℕ) : ℤ) = 8 * X ^ 4 - 8 * X ^ 2 + 1 := by
    have h3 := T_add_two ℝ 1
    have h4 := T_add_two ℝ 2
    norm_num at h3 h4
    push_cast
    rw [h4, h3, T_two]
    ring
  have hT3 : T ℝ ((3 : ℕ) : ℤ) = 4 * X ^ 3 - 3 * X := by
    have h3 := T_add_two ℝ 1
    norm_num at h3
    push_cast
    rw [h3, T_two]
    ring
  have hl : lastCoef (X ^ 4) 5 (-1) 1 = 1 / 8 := by
    unfold lastCoef
    simp only [show 5 - 1 = 4 from rfl]
    rw [scaledT_std, hT4]
    have e : (8 * X ^ 4 - 8 * X ^ 2 + 1 : ℝ[X]) = Polynomial.C 8 * X ^ 4 - Polynomial.C 8 * X ^ 2 + 1 := by
      simp [map_ofNat]
    rw [e]
    simp [coeff_one, coeff_X_pow]
  rw [hl, scaledT_std, scaledT_std, show 5 - 1 = 4 from rfl, show 5 - 2 = 3 from rfl, hT4, hT3]
  simp
  ring

/-- with two nodes `diff()` returns the zero function, whatever the slope is; so `diff().diff()` of `x ** 2`, which is
interpolated with three nodes, is 0 instead of 2 -/
theorem C65_violated_diff_two_nodes {a b : ℝ} (hab : a < b) (p : ℝ[X]) (ws : List ℝ) :
    (∃ D, diff2 (sampled 2 a b p ws) = .ok D ∧ Eval D 0) ∧
    ∃ D E, diff2 (sampled 3 (-1) 1 (X ^ 2) ws) = .ok D ∧ Eval D (2 * X) ∧ diff2 D = .ok E ∧ Eval E 0 := by
  have hl : (sampled 2 a b p ws).ys.length = 2 := by
    simp [sampled, (C39_cheb_grid (n := 2) le_rfl hab).length]
  refine ⟨diff2_two hab _ rfl hl, ?_⟩
  have h11 : (-1 : ℝ) < 1 := by norm_num
  obtain ⟨D, h1, h2⟩ := (C65_diff_iff (n := 3) le_rfl h11 (X ^ 2)
    (by rw [degree_X_pow]; exact_mod_cast (by norm_num : 2 < 3)) ws).2 (Or.inl rfl)
  obtain ⟨D', h1', hs, _⟩ := diff2_formula (N := 2) le_rfl h11 (X ^ 2)
    (by rw [degree_X_pow]; exact_mod_cast (by norm_num : 2 < 3)) ws
  rw [h1] at h1'
  obtain rfl : D = D' := Except.ok.inj h1'
  obtain ⟨E, h3, h4⟩ := diff2_two h11 D hs.1 hs.2
  refine ⟨D, E, h1, fun x => ?_, h3, h4⟩
  rw [h2 x]
  rw [derivative_X_sq]
  simp

/-- the eigenvalue routine assumed in the theorems on roots exists -/
example : ∃ eig, Eigs eig := by
  classical
  refine ⟨fun m M => (M.map (fun x : ℝ => (x : ℂ))).charpoly.roots.toList, fun m M z => ?_⟩
  rw [Multiset.mem_toList, mem_roots (Matrix.charpoly_monic _).ne_zero, ← Matrix.mem_spectrum_iff_isRoot_charpoly,
    ← Matrix.spectrum_toLin', ← Module.End.hasEigenvalue_iff_mem_spectrum]
  constructor
  · intro h
    obtain ⟨v, hv⟩ := h.exists_hasEigenvector
    exact ⟨v, hv.2, by simpa using hv.apply_eq_smul⟩
  · rintro ⟨v, hv, h⟩
    exact Module.End.hasEigenvalue_of_hasEigenvector (x := v) ⟨Module.End.mem_eigenspace_iff.2 (by simpa using h), hv⟩

/-- C65, weaker than wanted: `roots()` of an interpolator with `n ≥ 3` Chebyshev nodes are the zeros of the function plus
its last Chebyshev term. It is a `LinAlgError` if the function has a smaller degree than the nodes allow, and an
`IndexError` with two nodes. (Wanted: the zeros of the function. See `C65_violated_roots`.) -/
theorem C65_roots_partial {eig : (m : ℕ) → Matrix (Fin m) (Fin m) ℝ → List ℂ} (he : Eigs eig) {n : ℕ} {a b tol : ℝ}
    (hab : a < b) (htol : 0 < tol) (p : ℝ[X]) (hp : p.degree < n) (ws : List ℝ) :
    (3 ≤ n → p.coeff (n - 1) ≠ 0 → ∃ r, roots2 eig tol (sampled n a b p ws) = .ok r ∧
      RootsOf r (p + Polynomial.C (lastCoef p n a b) * scaledT (n - 1) a b) a b tol) ∧
    (3 ≤ n → p.coeff (n - 1) = 0 → roots2 eig tol (sampled n a b p ws) = .error linAlgErr) ∧
    (n = 2 → roots2 eig tol (sampled n a b p ws) = .error .index) := by
  have hlc : ∀ N, n = N + 1 → (p.coeff (n - 1) = 0 ↔ lastCoef p (N + 1) a b = 0) := by
    rintro N rfl
    unfold lastCoef
    simp [scaledT_coeff_ne N hab]
  refine ⟨fun hn hc => ?_, fun hn hc => ?_, fun hn => ?_⟩
  · obtain ⟨N, rfl⟩ : ∃ N, n = N + 1 := ⟨n - 1, by omega⟩
    obtain ⟨α, h1, h2, h3⟩ := expand hab p hp
    obtain ⟨r, hr, hz⟩ := chebroots_ok he (N := N) (by omega) α (by rw [h3]; exact fun h => hc ((hlc N rfl).2 h))
    obtain ⟨e0, e1⟩ := cheb_ends (n := N + 1) (by omega) a b
    refine ⟨keep tol a b r, ?_, ?_⟩
    · unfold roots2
      rw [chebt2_sampled (by omega) h2, ← dbl_list]
      simp only [Bind.bind, Except.bind]
      rw [hr]
      simp only [sampled, e0, e1]
    · have := keep_ok hab htol hz
      rw [add_comp, ← h1, smul_comp, ← scaledT_eq, h3, smul_eq_C_mul] at this
      exact this
  · obtain ⟨N, rfl⟩ : ∃ N, n = N + 1 := ⟨n - 1, by omega⟩
    obtain ⟨α, h1, h2, h3⟩ := expand hab p hp
    unfold roots2
    rw [chebt2_sampled (by omega) h2]
    simp only [Bind.bind, Except.bind]
    have : chebroots eig ((List.range (N + 1)).map fun i => dbl α N (N - i)).reverse = .error linAlgErr := by
      unfold chebroots
      simp only [List.length_reverse, List.length_map, List.length_range, Nat.add_sub_cancel]
      rw [if_neg (by omega), if_pos]
      rw [List.getD_eq_getElem?_getD, List.getElem?_reverse (by simp)]
      simp [dbl, h3, (hlc N rfl).1 hc]
    rw [this]
  · subst hn
    obtain ⟨α, h1, h2, h3⟩ := expand (N := 1) hab p (by exact_mod_cast hp)
    unfold roots2
    rw [show sampled 2 a b p ws = sampled (1 + 1) a b p ws from rfl, chebt2_sampled le_rfl h2]
    simp [Bind.bind, Except.bind, chebroots]

/-- C65: at the real zeros of the polynomial whose zeros are reported, the function is at most its last Chebyshev
coefficient -/
theorem C65_roots_residual {n : ℕ} {a b : ℝ} (hab : a < b) (p : ℝ[X]) :
    ∀ x, a < x → x < b → (p + Polynomial.C (lastCoef p n a b) * scaledT (n - 1) a b).eval x = 0 →
      |p.eval x| ≤ |lastCoef p n a b| := by
  intro x h1 h2 h3
  rw [eval_add, eval_mul, eval_C] at h3
  rw [eq_neg_of_add_eq_zero_left h3, abs_neg, abs_mul]
  have : |(scaledT (n - 1) a b).eval x| ≤ 1 := by
    rw [scaledT_eval]; exact T_abs_le _ (std_abs_le hab h1.le h2.le)
  exact mul_le_of_le_one_right (abs_nonneg _) this

/-- C65, weaker than wanted: `roots(use_2nd=False)`, used on other grids, resamples on the `self.n` Chebyshev nodes between
the first and the last node, so the same holds there. On the grids without an end `self.n` is the number of nodes plus
one: the last coefficient vanishes and the result is always a `LinAlgError` (in exact arithmetic). -/
theorem C65_roots_resampled_partial {eig : (m : ℕ) → Matrix (Fin m) (Fin m) ℝ → List ℂ} (he : Eigs eig) {n : ℕ}
    (hn : 3 ≤ n) {tol : ℝ} (htol : 0 < tol) (I : Bary) (p : ℝ[X]) (hI : Eval I p) (hp : p.degree < n) {x₀ x₁ : ℝ}
    (h0 : I.xs.head? = some x₀) (h1 : I.xs.getLast? = some x₁) (h : x₀ < x₁) :
    (p.coeff (n - 1) ≠ 0 → ∃ r, roots1 eig tol n I = .ok r ∧
      RootsOf r (p + Polynomial.C (lastCoef p n x₀ x₁) * scaledT (n - 1) x₀ x₁) x₀ x₁ tol) ∧
    (p.coeff (n - 1) = 0 → roots1 eig tol n I = .error linAlgErr) ∧
    (p.degree < I.xs.length → n = I.xs.length + 1 → roots1 eig tol n I = .error linAlgErr) := by
  have e : roots1 eig tol n I = roots2 eig tol (sampled n x₀ x₁ p (chebWeights n)) := by
    obtain ⟨e0, e1⟩ := cheb_ends (n := n) (by omega) x₀ x₁
    unfold roots1 roots2
    rw [h0, h1]
    simp only
    rw [mapM_at hI]
    simp only [Bind.bind, Except.bind, sampled, e0, e1]
  obtain ⟨k1, k2, _⟩ := C65_roots_partial he h htol p hp (chebWeights n)
  rw [e]
  refine ⟨k1 hn, k2 hn, fun hd hn' => k2 hn ?_⟩
  exact (degree_lt_iff_coeff_zero p I.xs.length).1 hd _ (by omega)

/-- the roots reported for `x ** 2` on `[-1, 1]`, interpolated exactly with three nodes, are `-1/2` and `1/2`, and not `0` -/
theorem C65_violated_roots {eig : (m : ℕ) → Matrix (Fin m) (Fin m) ℝ → List ℂ} (he : Eigs eig) {tol : ℝ} (htol : 0 < tol)
    (ws : List ℝ) : ∃ r, roots2 eig tol (sampled 3 (-1) 1 (X ^ 2) ws) = .ok r ∧ 1 / 2 ∈ r ∧ -1 / 2 ∈ r ∧ 0 ∉ r := by
  have hl : lastCoef (X ^ 2) 3 (-1) 1 = 1 / 2 := by
    unfold lastCoef
    rw [scaledT_std, show ((3 - 1 : ℕ) : ℤ) = 2 from rfl, T_two]
    rw [show (2 * X ^ 2 - 1 : ℝ[X]) = Polynomial.C 2 * X ^ 2 - 1 by simp [map_ofNat]]
    simp [coeff_one, coeff_X_pow]
  obtain ⟨r, h1, h2, h3⟩ := (C65_roots_partial he (n := 3) (show (-1 : ℝ) < 1 by norm_num) htol (X ^ 2)
    (by rw [degree_X_pow]; exact_mod_cast (by norm_num : 2 < 3)) ws).1 le_rfl (by simp)
  rw [hl, scaledT_std, show ((3 - 1 : ℕ) : ℤ) = 2 from rfl, T_two] at h2 h3
  refine ⟨r, h1, h2 _ (by norm_num) (by norm_num) (by simp; norm_num), h2 _ (by norm_num) (by norm_num)
    (by simp; norm_num), fun h0 => ?_⟩
  obtain ⟨_, _, z, hz, hre, _⟩ := h3 0 h0
  rw [← map_ofNat Polynomial.C 2] at hz
  simp at hz
  have h4 : z ^ 2 = 1 / 4 := by linear_combination (1 / 2) * hz
  have h5 := congrArg Complex.re h4
  have h6 : (z ^ 2).re = z.re ^ 2 - z.im ^ 2 := by rw [pow_two, Complex.mul_re]; ring
  rw [h6, hre] at h5
  norm_num at h5
  nlinarith [sq_nonneg z.im]

/-- C65, weaker than wanted: what `trim(abstol)` does to an interpolator with at least two Chebyshev nodes: it is unchanged
if twice its last coefficient is at least the tolerance; otherwise the last coefficient that is at least the tolerance
(not: that is so in absolute value) is halved and the later ones are dropped; if only the constant remains the result is
zero, and if nothing remains it is an `IndexError`. (Wanted: a change bounded by the dropped coefficients. See
`C65_violated_trim`.) -/
theorem C65_trim_partial {N : ℕ} (hN : 1 ≤ N) {a b tol : ℝ} (hab : a < b) (α : ℕ → ℝ) (ws : List ℝ) {p : ℝ[X]}
    (hp : p = ∑ k ∈ Finset.range (N + 1), Polynomial.C (α k) * scaledT k a b) :
    (tol ≤ 2 * α N → ∃ D, trim tol a b (sampled (N + 1) a b p ws) = .ok D ∧ Eval D p) ∧
    (2 * α N < tol → ∀ m, 1 ≤ m → m < N → tol ≤ α m → (∀ k, m < k → k < N → α k < tol) →
      ∃ D, trim tol a b (sampled (N + 1) a b p ws) = .ok D ∧ Eval D
        (∑ k ∈ Finset.range m, Polynomial.C (α k) * scaledT k a b + Polynomial.C (α m / 2) * scaledT m a b)) ∧
    (2 * α N < tol → tol ≤ α 0 → (∀ k, 0 < k → k < N → α k < tol) →
      ∃ D, trim tol a b (sampled (N + 1) a b p ws) = .ok D ∧ Eval D 0) ∧
    (2 * α N < tol → (∀ k, k < N → α k < tol) → trim tol a b (sampled (N + 1) a b p ws) = .error .index) := by
  have hs : p.comp (ofStd a b) = ser α N := by
    have e : p = (ser α N).comp (toStd a b) := by rw [hp, ser_comp]; simp only [smul_eq_C_mul]
    rw [e, comp_assoc, ofStd_toStd hab, comp_X]
  have hdN : dbl α N N = 2 * α N := by simp [dbl]
  have hd : ∀ k, k < N → dbl α N k = α k := fun k hk => by simp [dbl, hk.ne]
  have hlt : 2 * α N < tol → ∀ m, (∀ k, m < k → k < N → α k < tol) → ∀ k, m < k → k ≤ N → dbl α N k < tol := by
    intro h m hm k h1 h2
    rcases h2.lt_or_eq with h3 | rfl
    · rw [hd k h3]; exact hm k h1 h3
    · rw [hdN]; exact h
  refine ⟨fun h => ?_, fun h m h1 h2 h3 h4 => ?_, fun h h3 h4 => ?_, fun h h4 => ?_⟩
  · obtain ⟨D, e1, e2⟩ := trim_ok hN le_rfl hab hs ws (tol := tol) (by rw [hdN]; exact h) (fun k h1 h2 => by omega)
    refine ⟨D, e1, ?_⟩
    rw [if_neg (by omega), hdN, show 2 * α N / 2 = α N by ring, ← Finset.sum_range_succ (fun k => α k • scaledT k a b)] at e2
    rw [hp]
    simpa only [smul_eq_C_mul] using e2
  · obtain ⟨D, e1, e2⟩ := trim_ok hN h2.le hab hs ws (tol := tol) (by rw [hd m h2]; exact h3) (hlt h m h4)
    refine ⟨D, e1, ?_⟩
    rw [if_neg (by omega), hd m h2] at e2
    simpa only [smul_eq_C_mul] using e2
  · obtain ⟨D, e1, e2⟩ := trim_ok hN (Nat.zero_le N) hab hs ws (tol := tol) (by rw [hd 0 (by omega)]; exact h3) (hlt h 0 h4)
    exact ⟨D, e1, by simpa using e2⟩
  · refine trim_none hN hs ws fun k hk => ?_
    rcases hk.lt_or_eq with h3 | rfl
    · rw [hd k h3]; exact h4 k h3
    · rw [hdN]; exact h

/-- trimming changes functions beyond the tolerance: a positive constant becomes zero, `x - x ** 2` becomes `x / 2 - 1 / 2`,
and trimming `-x ** 2` is an `IndexError` -/
theorem C65_violated_trim {tol : ℝ} (h0 : 0 < tol) (h1 : tol ≤ 1) (ws : List ℝ) :
    (∃ D, trim tol (-1) 1 (sampled 3 (-1) 1 1 ws) = .ok D ∧ Eval D 0) ∧
    (∃ D, trim tol (-1) 1 (sampled 3 (-1) 1 (X - X ^ 2) ws) = .ok D ∧
      Eval D (Polynomial.C (1 / 2) * X - Polynomial.C (1 / 2))) ∧
    trim tol (-1) 1 (sampled 3 (-1) 1 (-X ^ 2) ws) = .error .index := by
  have h11 : (-1 : ℝ) < 1 := by norm_num
  have hT : ∀ α : ℕ → ℝ, ∑ k ∈ Finset.range (2 + 1), Polynomial.C (α k) * scaledT k (-1) 1
      = Polynomial.C (α 0) + Polynomial.C (α 1) * X + Polynomial.C (α 2) * (2 * X ^ 2 - 1) := by
    intro α
    simp only [scaledT_std, Finset.sum_range_succ, Finset.sum_range_zero]
    simp only [Nat.cast_zero, Nat.cast_one, Nat.cast_ofNat, T_zero, T_one, T_two]
    ring
  have half : (2 : ℝ[X]) * Polynomial.C (1 / 2) = 1 := by
    rw [← map_ofNat Polynomial.C 2, ← Polynomial.C_mul]; norm_num
  refine ⟨?_, ?_, ?_⟩
  · exact (C65_trim_partial (N := 2) (by norm_num) h11 (fun k => if k = 0 then 1 else 0) ws (tol := tol) (p := 1)
      (by rw [hT]; simp)).2.2.1 (by simpa using h0) (by simpa using h1) (fun k h2 h3 => by simp [h2.ne', h0])
  · obtain ⟨D, e1, e2⟩ := (C65_trim_partial (N := 2) (by norm_num) h11 (fun k => if k = 1 then 1 else -(1 / 2)) ws
      (tol := tol) (p := X - X ^ 2) (by rw [hT]; simp only [if_neg (show ¬ (0 = 1) by norm_num), if_neg (show ¬ (2 = 1) by norm_num), if_true, map_neg, map_one, map_zero]; linear_combination (X ^ 2) * half)).2.1
      (by norm_num; linarith) 1 le_rfl (by norm_num) (by simpa using h1) (fun k h2 h3 => by omega)
    refine ⟨D, e1, fun x => ?_⟩
    rw [e2 x]
    congr 1
    simp [scaledT_std]
    ring
  · exact (C65_trim_partial (N := 2) (by norm_num) h11 (fun k => if k = 1 then 0 else -(1 / 2)) ws
      (tol := tol) (p := -X ^ 2) (by rw [hT]; simp only [if_neg (show ¬ (0 = 1) by norm_num), if_neg (show ¬ (2 = 1) by norm_num), if_true, map_neg, map_one, map_zero]; linear_combination (X ^ 2) * half)).2.2.2
      (by norm_num; linarith) (fun k h2 => by
        by_cases hk : k = 1
        · simp [hk, h0]
        · simp only [hk, if_false]; linarith)

end Calc
end Pacal
