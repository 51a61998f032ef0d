import Verif.Calc.Roots
import Verif.Calc.Spec

/-! Helper lemmas for C65: from the standard interval to `[a, b]`. -/

namespace Pacal
namespace Calc
open Real Finset Polynomial Polynomial.Chebyshev Nodes Rule

theorem scaledT_eq (k : ℕ) (a b : ℝ) : scaledT k a b = (T ℝ (k : ℕ)).comp (toStd a b) := rfl

theorem scaledT_eval (k : ℕ) (a b x : ℝ) : (scaledT k a b).eval x = (T ℝ (k : ℕ)).eval ((2 * x - a - b) / (b - a)) := by
  rw [scaledT_eq, eval_comp, eval_toStd]

theorem toStd_degree {a b : ℝ} (hab : a < b) : (toStd a b).natDegree = 1 := by
  have : b - a ≠ 0 := (sub_pos.2 hab).ne'
  exact natDegree_linear (by positivity)

theorem scaledT_natDegree (k : ℕ) {a b : ℝ} (hab : a < b) : (scaledT k a b).natDegree = k := by
  rw [scaledT_eq, natDegree_comp, natDegree_T, toStd_degree hab]
  simp

theorem scaledT_coeff_ne (k : ℕ) {a b : ℝ} (hab : a < b) : (scaledT k a b).coeff k ≠ 0 := by
  have h := scaledT_natDegree k hab
  have h0 : (scaledT k a b).leadingCoeff ≠ 0 := by
    rw [scaledT_eq, leadingCoeff_comp (by rw [toStd_degree hab]; omega)]
    refine mul_ne_zero (leadingCoeff_ne_zero.2 (T_ne_zero ℝ _)) (pow_ne_zero _ (leadingCoeff_ne_zero.2 ?_))
    intro h0
    have := toStd_degree hab
    rw [h0] at this
    simp at this
  rwa [leadingCoeff, h] at h0

theorem sum_comp' (s : Finset ℕ) (f : ℕ → ℝ[X]) (q : ℝ[X]) : (∑ k ∈ s, f k).comp q = ∑ k ∈ s, (f k).comp q :=
  map_sum (compRingHom q) f s

theorem ser_comp (α : ℕ → ℝ) (N : ℕ) (a b : ℝ) :
    (ser α N).comp (toStd a b) = ∑ k ∈ range (N + 1), α k • scaledT k a b := by
  unfold ser
  rw [sum_comp']
  refine sum_congr rfl fun k _ => ?_
  rw [smul_comp, scaledT_eq]

/-- the expansion of a polynomial on `[a, b]` -/
theorem expand {N : ℕ} {a b : ℝ} (hab : a < b) (p : ℝ[X]) (hp : p.degree < (N + 1 : ℕ)) :
    ∃ α : ℕ → ℝ, p = (ser α N).comp (toStd a b) ∧ p.comp (ofStd a b) = ser α N ∧ α N = lastCoef p (N + 1) a b := by
  obtain ⟨α, hα, _⟩ := exists_ser N (p.comp (ofStd a b)) (degree_comp_lt (natDegree_ofStd a b) hp)
  have h1 : p = (ser α N).comp (toStd a b) := by
    rw [← hα, comp_assoc, toStd_ofStd hab, comp_X]
  refine ⟨α, h1, hα, ?_⟩
  unfold lastCoef
  rw [show N + 1 - 1 = N from rfl, eq_div_iff (scaledT_coeff_ne N hab)]
  conv_rhs => rw [h1, ser_comp]
  rw [sum_range_succ, coeff_add, finsetSum_coeff, sum_eq_zero, zero_add, coeff_smul, smul_eq_mul]
  intro k hk
  rw [mem_range] at hk
  rw [coeff_smul, coeff_eq_zero_of_natDegree_lt (by rw [scaledT_natDegree k hab]; exact hk), smul_zero]

theorem sampled_eq {N : ℕ} (hN : 1 ≤ N) {a b : ℝ} {p : ℝ[X]} {α : ℕ → ℝ} (h : p.comp (ofStd a b) = ser α N)
    (ws : List ℝ) : sampled (N + 1) a b p ws
      = ⟨cheb (N + 1) a b, (List.range (N + 1)).map fun j : ℕ => (ser α N).eval (-cos ((j : ℝ) * π / N)), ws⟩ := by
  unfold sampled
  rw [cheb_map hN]
  simp only [← h, eval_comp]

theorem comp_deriv (q : ℝ[X]) (a b : ℝ) :
    derivative (q.comp (toStd a b)) = Polynomial.C (2 / (b - a)) * (derivative q).comp (toStd a b) := by
  rw [derivative_comp]
  congr 1
  simp [toStd]

theorem diff2_formula {N : ℕ} (hN : 2 ≤ N) {a b : ℝ} (hab : a < b) (p : ℝ[X]) (hp : p.degree < (N + 1 : ℕ))
    (ws : List ℝ) : ∃ D, diff2 (sampled (N + 1) a b p ws) = .ok D ∧ (D.xs = cheb N a b ∧ D.ys.length = N) ∧ ∀ x, D.at x = .ok ((derivative p).eval x
      + lastCoef p (N + 1) a b * ((derivative (scaledT N a b)).eval x
        - 2 * (N : ℝ) * (2 / (b - a)) * (scaledT (N - 1) a b).eval x)) := by
  obtain ⟨α, h1, h2, h3⟩ := expand hab p hp
  obtain ⟨D, hD, hs, hx⟩ := diff2_ser hN hab α ws _ (sampled_eq (by omega) h2 ws)
  refine ⟨D, hD, hs, fun x => ?_⟩
  rw [hx x, h3]
  conv_rhs => rw [h1]
  rw [scaledT_eq, comp_deriv, comp_deriv, scaledT_eval, eval_mul, eval_mul, eval_C, eval_comp, eval_comp, eval_toStd]
  simp only [eval_add, eval_smul, eval_sub, smul_eq_mul]
  rw [← h1]
  congr 1
  ring

theorem T_abs_le (k : ℕ) {t : ℝ} (ht : |t| ≤ 1) : |(T ℝ (k : ℕ)).eval t| ≤ 1 := abs_eval_T_real_le_one _ ht

theorem U_abs_le (k : ℕ) {t : ℝ} (ht : |t| ≤ 1) : |(U ℝ (k : ℤ)).eval t| ≤ k + 1 := by
  have h1 := U_eval_one ℝ (k : ℤ)
  rw [← U_sum, eval_finsetSum] at h1
  rw [← U_sum, eval_finsetSum]
  refine (abs_sum_le_sum_abs _ _).trans ?_
  have h2 : ((k : ℤ) : ℝ) + 1 = k + 1 := by simp
  rw [← h2, ← h1]
  refine sum_le_sum fun m _ => ?_
  rw [eval_smul, eval_smul, smul_eq_mul, smul_eq_mul, T_eval_one, mul_one, abs_mul]
  have h3 : 0 ≤ (if (k - m) % 2 = 0 then (if m = 0 then (1 : ℝ) else 2) else 0) := by split_ifs <;> norm_num
  rw [abs_of_nonneg h3]
  exact mul_le_of_le_one_right h3 (T_abs_le m ht)

theorem std_abs_le {a b x : ℝ} (hab : a < b) (h1 : a ≤ x) (h2 : x ≤ b) : |(2 * x - a - b) / (b - a)| ≤ 1 := by
  have h : 0 < b - a := sub_pos.2 hab
  rw [abs_le, le_div_iff₀ h, div_le_iff₀ h]
  constructor <;> linarith

theorem scaledT_deriv_abs (N : ℕ) {a b x : ℝ} (hab : a < b) (h1 : a ≤ x) (h2 : x ≤ b) :
    |(derivative (scaledT N a b)).eval x| ≤ 2 / (b - a) * (N : ℝ) ^ 2 := by
  have h : 0 < b - a := sub_pos.2 hab
  rw [scaledT_eq, comp_deriv, eval_mul, eval_C, eval_comp, eval_toStd, T_derivative_eq_U, abs_mul,
    abs_of_pos (by positivity)]
  refine mul_le_mul_of_nonneg_left ?_ (by positivity)
  rcases N with _ | N
  · simp
  · rw [eval_mul, show (((N + 1 : ℕ) : ℤ) - 1) = (N : ℤ) by push_cast; ring]
    have := U_abs_le N (std_abs_le hab h1 h2)
    rw [abs_mul, pow_two]
    push_cast
    simp only [eval_add, eval_natCast, eval_one]
    rw [abs_of_nonneg (by positivity)]
    exact mul_le_mul_of_nonneg_left this (by positivity)

theorem mapM_at {I : Bary} {p : ℝ[X]} (h : Eval I p) (l : List ℝ) : l.mapM I.at = .ok (l.map fun x => p.eval x) := by
  induction l with
  | nil => rfl
  | cons x l ih => rw [List.mapM_cons, h x, ih]; rfl

theorem onCheb_sampled {n : ℕ} (hn : 2 ≤ n) {a b : ℝ} (hab : a < b) (p : ℝ[X]) :
    onCheb a b ((cheb n a b).map fun x => p.eval x) = sampled n a b p (chebWeights n) := by
  unfold onCheb sampled
  rw [List.length_map, (C39_cheb_grid hn hab).length]

theorem chebt2_length {f c : List ℝ} (h : chebt2 f = .ok c) : 2 ≤ f.length ∧ c.length = f.length := by
  unfold chebt2 at h
  simp only at h
  split_ifs at h with h1
  rw [← Except.ok.inj h]
  simp [fftReal]
  omega

/-- the derivative computed from two values is zero -/
theorem diff2_two {a b : ℝ} (hab : a < b) (I : Bary) (hx : I.xs = cheb 2 a b) (hy : I.ys.length = 2) :
    ∃ D, diff2 I = .ok D ∧ Eval D 0 := by
  obtain ⟨h0, h1⟩ := cheb_ends (n := 2) le_rfl a b
  obtain ⟨c, hc⟩ : ∃ c, chebt2 I.ys = .ok c := by
    unfold chebt2
    simp only [hy]
    exact ⟨_, if_neg (by omega)⟩
  obtain ⟨d, hd⟩ : ∃ d, diffCoef c = [d] := by
    have hl : (diffCoef c).length = 1 := by
      simp [diffCoef, (chebt2_length hc).2, hy]
    exact List.length_eq_one_iff.1 hl
  unfold diff2
  rw [hc, hx, h0, h1]
  simp only [Bind.bind, Except.bind]
  rw [hd, ichebt2_one]
  refine ⟨_, rfl, fun x => ?_⟩
  have := onCheb_at (N := 1) le_rfl hab 0 (by rw [degree_zero]; exact WithBot.bot_lt_coe _) x
  simpa [List.range_succ] using this

/-- the roots of the series with the doubled coefficient -/
theorem chebroots_ok {eig : (m : ℕ) → Matrix (Fin m) (Fin m) ℝ → List ℂ} (he : Eigs eig) {N : ℕ} (hN : 2 ≤ N)
    (α : ℕ → ℝ) (hα : α N ≠ 0) : ∃ r, chebroots eig
      ((List.range (N + 1)).map fun i => (if i = 0 then 2 else 1) * α (N - i)).reverse = .ok r ∧
      ∀ z : ℂ, z ∈ r ↔ aeval z (ser α N + α N • T ℝ (N : ℕ)) = 0 := by
  set c : ℕ → ℝ := fun k => if k = N then 2 * α k else α k with hc
  have e : ((List.range (N + 1)).map fun i => (if i = 0 then 2 else 1) * α (N - i)).reverse
      = (List.range (N + 1)).map c := by
    apply List.ext_getElem
    · simp
    · intro i h1 h2
      simp only [List.length_map, List.length_range] at h2
      simp only [List.getElem_reverse, List.getElem_map, List.getElem_range, List.length_map, List.length_range, hc]
      by_cases h : i = N
      · subst h; simp
      · rw [if_neg (by omega), if_neg h, one_mul]
        congr 1
        omega
  have hg : ∀ k ≤ N, ((List.range (N + 1)).map c).getD k 0 = c k := by
    intro k hk
    rw [List.getD_eq_getElem?_getD, List.getElem?_map, List.getElem?_range (by omega)]
    rfl
  have hcN : c N = 2 * α N := by simp [hc]
  rw [e]
  unfold chebroots
  rw [show ((List.range (N + 1)).map c).length - 1 = N by simp]
  simp only
  rw [if_neg (by omega), hg N le_rfl, if_neg (by rw [hcN]; simpa using hα)]
  refine ⟨_, rfl, fun z => ?_⟩
  rw [he, companion_eig _ hN (by rw [hg N le_rfl, hcN]; simpa using hα)]
  rw [show ser α N + α N • T ℝ (N : ℕ) = ser c N by
    rw [hc, ser_last α N (2 * ·)]; congr 2; ring]
  unfold ser
  rw [map_sum]
  rw [sum_congr rfl (g := fun k : ℕ => aeval z (c k • T ℝ (k : ℕ)))]
  intro k hk
  rw [mem_range] at hk
  rw [hg k (by omega), map_smul, aeval_T, Complex.real_smul]

theorem keep_ok {a b tol : ℝ} (hab : a < b) {r : List ℂ} {q : ℝ[X]} (htol : 0 < tol)
    (h : ∀ z : ℂ, z ∈ r ↔ aeval z q = 0) : RootsOf (keep tol a b r) (q.comp (toStd a b)) a b tol := by
  have hba : 0 < b - a := sub_pos.2 hab
  have hba' : b - a ≠ 0 := hba.ne'
  unfold keep RootsOf
  constructor
  · intro x h1 h2 hx
    rw [eval_comp, eval_toStd] at hx
    simp only [List.mem_map, List.mem_filter, decide_eq_true_eq]
    refine ⟨(2 * x - a - b) / (b - a), ⟨⟨(((2 * x - a - b) / (b - a) : ℝ) : ℂ), ⟨?_, ?_⟩, Complex.ofReal_re _⟩, ?_, ?_⟩, ?_⟩
    · rw [h]
      have := Polynomial.aeval_algebraMap_apply ℂ ((2 * x - a - b) / (b - a)) q
      rw [← Complex.coe_algebraMap, this, coe_aeval_eq_eval, hx, map_zero]
    · rw [Complex.ofReal_im, abs_zero]; exact htol
    · rw [lt_div_iff₀ hba]; linarith
    · rw [div_lt_iff₀ hba]; linarith
    · field_simp; ring
  · intro x hx
    simp only [List.mem_map, List.mem_filter, decide_eq_true_eq] at hx
    obtain ⟨t, ⟨⟨z, ⟨hz, him⟩, rfl⟩, ht1, ht2⟩, rfl⟩ := hx
    rw [h] at hz
    refine ⟨by nlinarith, by nlinarith, (z * (b - a : ℝ) + (a + b : ℝ)) * (1 / 2 : ℝ), ?_, ?_, ?_⟩
    · rw [aeval_comp]
      have : (aeval ((z * (b - a : ℝ) + (a + b : ℝ)) * (1 / 2 : ℝ))) (toStd a b) = z := by
        simp only [toStd, map_add, map_mul, Polynomial.aeval_C, aeval_X, Complex.coe_algebraMap]
        have hc : (b : ℂ) - a ≠ 0 := by exact_mod_cast hba'
        push_cast
        field_simp
        ring
      rw [this, hz]
    · simp
    · simp
      rw [abs_of_pos hba]
      nlinarith

/-- the coefficients as `chebt2` returns them -/
def dbl (α : ℕ → ℝ) (N : ℕ) : ℕ → ℝ := fun k => if k = N then 2 * α k else α k

theorem dbl_list (α : ℕ → ℝ) (N : ℕ) : ((List.range (N + 1)).map fun i => (if i = 0 then 2 else 1) * α (N - i))
    = (List.range (N + 1)).map fun i => dbl α N (N - i) := by
  apply List.map_congr_left
  intro i hi
  rw [List.mem_range] at hi
  unfold dbl
  by_cases h : i = 0
  · subst h; simp
  · rw [if_neg h, if_neg (by omega), one_mul]

theorem chebt2_sampled {N : ℕ} (hN : 1 ≤ N) {a b : ℝ} {p : ℝ[X]} {α : ℕ → ℝ} (h : p.comp (ofStd a b) = ser α N)
    (ws : List ℝ) : chebt2 (sampled (N + 1) a b p ws).ys = .ok ((List.range (N + 1)).map fun i => dbl α N (N - i)) := by
  rw [sampled_eq hN h, ← dbl_list]
  exact chebt2_ok hN α

theorem range_step (c : ℕ → ℝ) (N : ℕ) : ((List.range (N + 1 + 1)).map fun i => c (N + 1 - i))
    = c (N + 1) :: (List.range (N + 1)).map fun i => c (N - i) := by
  rw [List.range_succ_eq_map, List.map_cons, List.map_map]
  congr 1
  apply List.map_congr_left
  intro i _
  simp only [Function.comp]
  congr 1
  omega

theorem trimLoop_ok {tol : ℝ} (c : ℕ → ℝ) {m : ℕ} (hm : tol ≤ c m) : ∀ {N : ℕ}, m ≤ N →
    (∀ k, m < k → k ≤ N → c k < tol) →
    trimLoop tol ((List.range (N + 1)).map fun i => c (N - i)) = .ok ((List.range (m + 1)).map fun i => c (m - i)) := by
  intro N hmN
  induction N, hmN using Nat.le_induction with
  | base =>
    intro _
    obtain ⟨l, hl⟩ : ∃ l, ((List.range (m + 1)).map fun i => c (m - i)) = c m :: l := by
      rw [List.range_succ_eq_map]; exact ⟨_, by simp; rfl⟩
    rw [hl]
    exact if_neg (not_lt.2 hm)
  | succ N hmN ih =>
    intro h
    rw [range_step]
    rw [trimLoop, if_pos (h (N + 1) (by omega) le_rfl)]
    exact ih fun k h1 h2 => h k h1 (by omega)

theorem trimLoop_none {tol : ℝ} (c : ℕ → ℝ) : ∀ {N : ℕ}, (∀ k, k ≤ N → c k < tol) →
    trimLoop tol ((List.range (N + 1)).map fun i => c (N - i)) = .error .index := by
  intro N
  induction N with
  | zero =>
    intro h
    simp [trimLoop, h 0 le_rfl]
  | succ N ih =>
    intro h
    rw [range_step, trimLoop, if_pos (h (N + 1) le_rfl)]
    exact ih fun k hk => h k (by omega)

theorem onCheb_cos {m : ℕ} (hm : 1 ≤ m) {a b : ℝ} (hab : a < b) (q : ℝ[X]) (hq : q.degree < (m + 1 : ℕ)) :
    Eval (onCheb a b ((List.range (m + 1)).map fun j : ℕ => q.eval (cos ((j : ℝ) * π / m))).reverse)
      (q.comp (toStd a b)) := by
  have hr := reverse_cos hm q id
  simp only [id] at hr
  rw [hr]
  intro x
  rw [onCheb_at hm hab q hq, eval_comp, eval_toStd]

theorem trim_ok {N m : ℕ} (hN : 1 ≤ N) (hmN : m ≤ N) {a b tol : ℝ} (hab : a < b) {p : ℝ[X]} {α : ℕ → ℝ}
    (hp : p.comp (ofStd a b) = ser α N) (ws : List ℝ) (hm : tol ≤ dbl α N m)
    (hk : ∀ k, m < k → k ≤ N → dbl α N k < tol) :
    ∃ D, trim tol a b (sampled (N + 1) a b p ws) = .ok D ∧ Eval D (if m = 0 then 0 else
      ∑ k ∈ range m, α k • scaledT k a b + (dbl α N m / 2) • scaledT m a b) := by
  unfold trim
  rw [chebt2_sampled hN hp]
  simp only [Bind.bind, Except.bind]
  rw [trimLoop_ok _ hm hmN hk]
  simp only
  by_cases h0 : m = 0
  · subst h0
    rw [if_pos rfl, show ((List.range (0 + 1)).map fun i => dbl α N (0 - i)) = [dbl α N 0] by simp, ichebt2_one]
    refine ⟨_, rfl, fun x => ?_⟩
    have := onCheb_at (N := 1) le_rfl hab 0 (by rw [degree_zero]; exact WithBot.bot_lt_coe _) x
    simpa [List.range_succ] using this
  · rw [if_neg h0, ichebt2_ok (by omega)]
    refine ⟨_, rfl, ?_⟩
    have := onCheb_cos (m := m) (by omega) hab (ser (fun k => if k = m then dbl α N k / 2 else dbl α N k) m)
      (degree_ser _ _)
    rw [ser_comp, sum_range_succ, if_pos rfl] at this
    convert this using 2
    refine sum_congr rfl fun k hk => ?_
    have := mem_range.1 hk
    rw [if_neg (by omega)]
    unfold dbl
    rw [if_neg (by omega)]

theorem trim_none {N : ℕ} (hN : 1 ≤ N) {a b tol : ℝ} {p : ℝ[X]} {α : ℕ → ℝ}
    (hp : p.comp (ofStd a b) = ser α N) (ws : List ℝ) (hk : ∀ k, k ≤ N → dbl α N k < tol) :
    trim tol a b (sampled (N + 1) a b p ws) = .error .index := by
  unfold trim
  rw [chebt2_sampled hN hp]
  simp only [Bind.bind, Except.bind]
  rw [trimLoop_none _ hk]

theorem scaledT_std (k : ℕ) : scaledT k (-1) 1 = T ℝ (k : ℤ) := by
  unfold scaledT
  have : (Polynomial.C ((2 : ℝ) / (1 - -1)) * X + Polynomial.C (-(-1 + 1) / (1 - -1)) : ℝ[X]) = X := by
    norm_num
  rw [this, comp_X]

end Calc
end Pacal
