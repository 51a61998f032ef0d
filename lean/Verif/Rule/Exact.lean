import Verif.Rule.Lemmas
import Verif.Rule.Spec
import Verif.Nodes.PropsNodes
import Mathlib.MeasureTheory.Integral.IntervalIntegral.Basic
import Mathlib.Algebra.Polynomial.Degree.Lemmas
import Mathlib.Topology.ContinuousMap.Weierstrass

/-! Helper lemmas for C64: exactness, error and convergence on an arbitrary interval. -/

namespace Pacal
namespace Rule
open Real Finset Polynomial Nodes Mon

/-- the node `k` of `M + 1` Chebyshev points -/
noncomputable def nd (M : ℕ) (a b : ℝ) (k : ℕ) : ℝ := point a b (k * π / M)

theorem cheb_nd {M : ℕ} (hM : 2 ≤ M) (a b : ℝ) : cheb (M + 1) a b = (List.range (M + 1)).map (nd M a b) := by
  rw [cheb_eq (by omega)]
  apply List.map_congr_left
  intro k _
  unfold nodeAt nd
  congr 2
  push_cast
  ring

theorem nd_mem {M : ℕ} {a b : ℝ} (h : a ≤ b) (k : ℕ) : nd M a b k ∈ Set.Icc a b := by
  unfold nd point
  constructor <;> nlinarith [neg_one_le_cos (k * π / M), cos_le_one (k * π / M)]

/-- the rule as a sum over all `M + 1` points -/
noncomputable def Q (M : ℕ) (u : ℕ → ℝ) (a b : ℝ) (f : ℝ → ℝ) : ℝ :=
  (∑ k ∈ range (M + 1), wt M u k * f (nd M a b k)) * ((b - a) / 2)

theorem sum_map_range (f : ℕ → ℝ) (n : ℕ) : ((List.range n).map f).sum = ∑ k ∈ range n, f k := by
  rw [← List.sum_toFinset _ List.nodup_range, List.toFinset_range]

theorem zip_range (g : ℝ → ℝ → ℝ) (x w : ℕ → ℝ) (n : ℕ) :
    List.zipWith g ((List.range n).map x) ((List.range n).map w) = (List.range n).map fun k => g (x k) (w k) := by
  apply List.ext_getElem <;> simp

theorem apply_clenshaw {M : ℕ} (hM : 2 ≤ M) (f : ℝ → ℝ) (a b : ℝ) :
    apply f (cheb (M + 1) a b) ((List.range (M + 1)).map (wt M (uC M))) a b = Q M (uC M) a b f := by
  unfold apply Q
  rw [cheb_nd hM, zip_range, sum_map_range]
  congr 1
  exact sum_congr rfl fun k _ => mul_comm _ _

theorem apply_fejer {M : ℕ} (hM : 2 ≤ M) (f : ℝ → ℝ) (a b : ℝ) :
    apply f (inner (cheb (M + 1) a b)) ((List.range (M - 1)).map fun k => wt M (uF M) (k + 1)) a b
      = Q M (uF M) a b f := by
  unfold apply Q
  rw [cheb_nd hM, inner_range, show M + 1 - 2 = M - 1 by omega, zip_range, sum_map_range]
  congr 1
  rw [sum_range_succ, wt_last (by omega), wtF_zero hM]
  obtain ⟨m, rfl⟩ : ∃ m, M = m + 1 := ⟨M - 1, by omega⟩
  rw [sum_range_succ', wtF_zero hM, Nat.add_sub_cancel]
  simp only [zero_mul, add_zero]
  exact sum_congr rfl fun k _ => mul_comm _ _

theorem Q_poly {M : ℕ} (u : ℕ → ℝ) (hu : ∀ j, 1 ≤ j → j < M → u (M - j) = u j) {d : ℕ} (hd : d / 2 < M)
    (hv : ∀ s, 2 * s ≤ d → u s + wt M u 0 = 2 / (1 - 4 * (s : ℝ) ^ 2)) (p : ℝ[X]) (hp : p.natDegree ≤ d)
    (a b : ℝ) : Q M u a b (fun x => p.eval x) = ∫ x in a..b, p.eval x := by
  set q : ℝ[X] := p.comp (C ((b - a) / 2) * X + C ((a + b) / 2)) with hq
  have he : ∀ t : ℝ, q.eval t = p.eval ((b - a) / 2 * t + (a + b) / 2) := by
    intro t; rw [hq]; simp [eval_comp]
  have hdeg : q.natDegree ≤ d := by
    rw [hq]
    refine natDegree_comp_le.trans (le_trans ?_ hp)
    calc p.natDegree * (C ((b - a) / 2) * X + C ((a + b) / 2)).natDegree ≤ p.natDegree * 1 :=
          Nat.mul_le_mul_left _ natDegree_linear_le
      _ = p.natDegree := mul_one _
  have h := rule_exact u hu hd hv q hdeg
  have hi := intervalIntegral.mul_integral_comp_mul_add (a := (-1 : ℝ)) (b := 1) (f := fun x => p.eval x) ((b - a) / 2)
    ((a + b) / 2)
  rw [show (b - a) / 2 * (-1) + (a + b) / 2 = a by ring, show (b - a) / 2 * 1 + (a + b) / 2 = b by ring] at hi
  rw [← hi]
  simp only [← he]
  rw [← h]
  unfold Q
  rw [mul_comm]
  congr 1
  refine sum_congr rfl fun k _ => ?_
  rw [he]
  unfold nd point
  congr 2
  ring

theorem QF_poly {M : ℕ} (hM : 2 ≤ M) (p : ℝ[X]) (hp : p.natDegree < 2 * (M / 2)) (a b : ℝ) :
    Q M (uF M) a b (fun x => p.eval x) = ∫ x in a..b, p.eval x := by
  refine Q_poly (d := 2 * (M / 2) - 1) _ uF_symm (by omega) (fun s hs => ?_) p (by omega) a b
  rw [wtF_zero hM, add_zero, uF_low (by omega)]

theorem QC_poly {M : ℕ} (hM : 2 ≤ M) (p : ℝ[X]) (hp : p.natDegree ≤ M) (a b : ℝ) :
    Q M (uC M) a b (fun x => p.eval x) = ∫ x in a..b, p.eval x := by
  refine Q_poly (d := M) _ uC_symm (by omega) (fun s hs => ?_) p hp a b
  rcases Nat.lt_or_ge s (M / 2) with h | h
  · exact uC_low hM h
  · have : s = M / 2 := by omega
    rw [this]
    exact uC_mid hM

theorem sum_weights {M : ℕ} {u : ℕ → ℝ}
    (h : ∀ a b, Q M u a b (fun x => (1 : ℝ[X]).eval x) = ∫ x in a..b, (1 : ℝ[X]).eval x) :
    ∑ k ∈ range (M + 1), wt M u k = 2 := by
  have := h 0 2
  unfold Q at this
  simp at this
  exact this

/-- the error of a rule with nonnegative weights is controlled by the best approximation -/
theorem Q_error {M : ℕ} {u : ℕ → ℝ} (hw : ∀ k, 0 ≤ wt M u k) (hs : ∑ k ∈ range (M + 1), wt M u k = 2) {a b : ℝ}
    (hab : a ≤ b) {f : ℝ → ℝ} (hf : IntervalIntegrable f MeasureTheory.volume a b) (p : ℝ[X])
    (hp : Q M u a b (fun x => p.eval x) = ∫ x in a..b, p.eval x) {δ : ℝ}
    (hδ : ∀ x ∈ Set.Icc a b, |f x - p.eval x| ≤ δ) :
    |Q M u a b f - ∫ x in a..b, f x| ≤ 2 * (b - a) * δ := by
  have h1 : |Q M u a b f - Q M u a b (fun x => p.eval x)| ≤ (b - a) * δ := by
    unfold Q
    rw [← sub_mul, ← sum_sub_distrib, abs_mul, abs_of_nonneg (by linarith : 0 ≤ (b - a) / 2)]
    have : |∑ k ∈ range (M + 1), (wt M u k * f (nd M a b k) - wt M u k * p.eval (nd M a b k))| ≤ 2 * δ := by
      calc _ ≤ ∑ k ∈ range (M + 1), |wt M u k * f (nd M a b k) - wt M u k * p.eval (nd M a b k)| :=
            abs_sum_le_sum_abs _ _
        _ ≤ ∑ k ∈ range (M + 1), wt M u k * δ := by
            refine sum_le_sum fun k _ => ?_
            rw [← mul_sub, abs_mul, abs_of_nonneg (hw k)]
            exact mul_le_mul_of_nonneg_left (hδ _ (nd_mem hab k)) (hw k)
        _ = 2 * δ := by rw [← sum_mul, hs]
    calc _ ≤ 2 * δ * ((b - a) / 2) := mul_le_mul_of_nonneg_right this (by linarith)
      _ = (b - a) * δ := by ring
  have h2 : |(∫ x in a..b, p.eval x) - ∫ x in a..b, f x| ≤ (b - a) * δ := by
    rw [← intervalIntegral.integral_sub (p.continuous.intervalIntegrable _ _) hf]
    have := intervalIntegral.norm_integral_le_of_norm_le_const (a := a) (b := b) (C := δ)
      (f := fun x => p.eval x - f x) (by
        intro x hx
        rw [Set.uIoc_of_le hab] at hx
        rw [Real.norm_eq_abs, abs_sub_comm]
        exact hδ x ⟨hx.1.le, hx.2⟩)
    rw [Real.norm_eq_abs, abs_of_nonneg (by linarith : 0 ≤ b - a)] at this
    linarith
  calc _ = |(Q M u a b f - Q M u a b fun x => p.eval x) + ((∫ x in a..b, p.eval x) - ∫ x in a..b, f x)| := by
        rw [hp]; congr 1; ring
    _ ≤ _ := abs_add_le _ _
    _ ≤ 2 * (b - a) * δ := by linarith

theorem sumF {M : ℕ} (hM : 2 ≤ M) : ∑ k ∈ range (M + 1), wt M (uF M) k = 2 :=
  sum_weights fun a b => QF_poly hM 1 (by simp; omega) a b

theorem sumC {M : ℕ} (hM : 2 ≤ M) : ∑ k ∈ range (M + 1), wt M (uC M) k = 2 :=
  sum_weights fun a b => QC_poly hM 1 (by simp) a b

/-- a polynomial close to a continuous function, also on a degenerate interval -/
theorem exists_near {a b : ℝ} {f : ℝ → ℝ} (hf : ContinuousOn f (Set.Icc a b)) {ε : ℝ} (hε : 0 < ε) :
    ∃ p : ℝ[X], ∀ x ∈ Set.Icc a b, |f x - p.eval x| ≤ ε := by
  obtain ⟨p, hp⟩ := exists_polynomial_near_of_continuousOn a b f hf ε hε
  exact ⟨p, fun x hx => by rw [abs_sub_comm]; exact (hp x hx).le⟩

end Rule
end Pacal
