import Verif.Calc.Deriv
import Mathlib.LinearAlgebra.Matrix.Charpoly.Eigs
import Mathlib.Analysis.SpecialFunctions.Trigonometric.Chebyshev.RootsExtrema
import Mathlib.Analysis.Complex.Polynomial.Basic

/-! Helper lemmas for C65: the eigenvalues of the companion matrix, resampling, trimming. -/

namespace Pacal
namespace Calc
open Real Finset Polynomial Polynomial.Chebyshev Nodes Rule

/-- the products of the companion matrix with a vector -/
theorem companion_rows (c : List ℝ) {m : ℕ} (hm : 2 ≤ m) (w : ℕ → ℂ) (i : Fin m) :
    (((companion c m).map (fun x : ℝ => (x : ℂ))).mulVec fun j => w j.val) i
      = if i.val = m - 1 then -(1 / 2) / (c.getD m 0 : ℂ) * ∑ j ∈ range m, (c.getD j 0 : ℂ) * w j + 1 / 2 * w (m - 2)
        else if i.val = 0 then w 1 else 1 / 2 * w (i.val - 1) + 1 / 2 * w (i.val + 1) := by
  have hi := i.isLt
  simp only [Matrix.mulVec, dotProduct, Matrix.map_apply]
  have key : ∀ g : ℕ → ℂ, ∑ j : Fin m, g j.val = ∑ j ∈ range m, g j := fun g => Fin.sum_univ_eq_sum_range g m
  unfold companion
  split_ifs with h1 h2
  · rw [key fun j => ((-(1 / 2) * c.getD j 0 / c.getD m 0 + if j = m - 2 then 1 / 2 else 0 : ℝ) : ℂ) * w j]
    have : ∀ j ∈ range m, ((-(1 / 2) * c.getD j 0 / c.getD m 0 + if j = m - 2 then 1 / 2 else 0 : ℝ) : ℂ) * w j
        = -(1 / 2) / (c.getD m 0 : ℂ) * ((c.getD j 0 : ℂ) * w j) + if j = m - 2 then 1 / 2 * w j else 0 := by
      intro j _
      by_cases h : j = m - 2
      · rw [if_pos h, if_pos h]; push_cast; ring
      · rw [if_neg h, if_neg h]; push_cast; ring
    rw [sum_congr rfl this, sum_add_distrib, ← mul_sum, sum_ite_eq', if_pos (mem_range.2 (by omega))]
  · rw [key fun j => ((if j = 1 then 1 else 0 : ℝ) : ℂ) * w j]
    have : ∀ j ∈ range m, ((if j = 1 then 1 else 0 : ℝ) : ℂ) * w j = if j = 1 then w j else 0 := by
      intro j _
      split_ifs <;> simp
    rw [sum_congr rfl this, sum_ite_eq', if_pos (mem_range.2 (by omega))]
  · rw [key fun j => ((if j + 1 = i.val ∨ j = i.val + 1 then 1 / 2 else 0 : ℝ) : ℂ) * w j]
    have : ∀ j ∈ range m, ((if j + 1 = i.val ∨ j = i.val + 1 then 1 / 2 else 0 : ℝ) : ℂ) * w j
        = (if j = i.val - 1 then 1 / 2 * w j else 0) + if j = i.val + 1 then 1 / 2 * w j else 0 := by
      intro j _
      by_cases ha : j = i.val - 1
      · rw [if_pos (Or.inl (by omega)), if_pos ha, if_neg (by omega)]; push_cast; ring
      · by_cases hb : j = i.val + 1
        · rw [if_pos (Or.inr hb), if_neg ha, if_pos hb]; push_cast; ring
        · rw [if_neg (by omega), if_neg ha, if_neg hb]; simp
    rw [sum_congr rfl this, sum_add_distrib, sum_ite_eq', sum_ite_eq', if_pos (mem_range.2 (by omega)),
      if_pos (mem_range.2 (by omega))]

theorem T_step (z : ℂ) (k : ℕ) : (T ℂ ((k + 2 : ℕ) : ℤ)).eval z
    = 2 * z * (T ℂ ((k + 1 : ℕ) : ℤ)).eval z - (T ℂ ((k : ℕ) : ℤ)).eval z := by
  push_cast
  rw [T_add_two]
  simp

/-- the eigenvalues of the companion matrix are the zeros of the series -/
theorem companion_eig (c : List ℝ) {m : ℕ} (hm : 2 ≤ m) (hc : c.getD m 0 ≠ 0) (z : ℂ) :
    (∃ v : Fin m → ℂ, v ≠ 0 ∧ ((companion c m).map (fun x : ℝ => (x : ℂ))).mulVec v = z • v)
      ↔ ∑ k ∈ range (m + 1), (c.getD k 0 : ℂ) * (T ℂ (k : ℕ)).eval z = 0 := by
  have hc' : (c.getD m 0 : ℂ) ≠ 0 := by exact_mod_cast hc
  constructor
  · rintro ⟨v, hv, h⟩
    obtain ⟨w, hw⟩ : ∃ w : ℕ → ℂ, v = fun j => w j.val :=
      ⟨fun k => if hk : k < m then v ⟨k, hk⟩ else 0, by funext j; simp⟩
    rw [hw] at h
    have hrow := fun i : Fin m => congrFun h i
    simp only [companion_rows c hm, Pi.smul_apply, smul_eq_mul] at hrow
    have hT : ∀ i, i < m → w i = (T ℂ (i : ℕ)).eval z * w 0 := by
      intro i
      induction i using Nat.strong_induction_on with
      | _ i ih =>
        intro hi
        rcases i with _ | _ | i
        · simp
        · have := hrow ⟨0, by omega⟩
          rw [if_neg (by simp; omega), if_pos rfl] at this
          simp [this]
        · have := hrow ⟨i + 1, by omega⟩
          rw [if_neg (by simp; omega), if_neg (by simp)] at this
          simp only [Nat.add_sub_cancel] at this
          rw [ih i (by omega) (by omega), ih (i + 1) (by omega) (by omega)] at this
          rw [T_step]
          linear_combination 2 * this
    have hlast := hrow ⟨m - 1, by omega⟩
    rw [if_pos rfl] at hlast
    simp only at hlast
    rw [hT (m - 2) (by omega), hT (m - 1) (by omega)] at hlast
    have hs : ∑ j ∈ range m, (c.getD j 0 : ℂ) * w j = (∑ j ∈ range m, (c.getD j 0 : ℂ) * (T ℂ (j : ℕ)).eval z) * w 0 := by
      rw [sum_mul]
      refine sum_congr rfl fun j hj => ?_
      rw [hT j (mem_range.1 hj)]
      ring
    rw [hs] at hlast
    have hw0 : w 0 ≠ 0 := by
      intro h0
      apply hv
      rw [hw]
      funext j
      rw [hT j.val j.isLt, h0, mul_zero]
      rfl
    have hTm := T_step z (m - 2)
    rw [show m - 2 + 2 = m by omega, show m - 2 + 1 = m - 1 by omega] at hTm
    rw [sum_range_succ, hTm]
    generalize (∑ j ∈ range m, (c.getD j 0 : ℂ) * (T ℂ (j : ℕ)).eval z) = S at *
    field_simp at hlast
    have h2 : S + (c.getD m 0 : ℂ) * (2 * z * (T ℂ ((m - 1 : ℕ) : ℤ)).eval z - (T ℂ ((m - 2 : ℕ) : ℤ)).eval z) = 0 := by
      linear_combination -hlast
    exact h2
  · intro hS
    refine ⟨fun j => (T ℂ (j.val : ℕ)).eval z, ?_, ?_⟩
    · intro h0
      have := congrFun h0 ⟨0, by omega⟩
      simp at this
    · funext i
      have hi := i.isLt
      rw [companion_rows c hm (fun k => (T ℂ (k : ℕ)).eval z), Pi.smul_apply, smul_eq_mul]
      split_ifs with h1 h2
      · rw [sum_range_succ] at hS
        have hTm := T_step z (m - 2)
        rw [show m - 2 + 2 = m by omega, show m - 2 + 1 = m - 1 by omega] at hTm
        rw [hTm] at hS
        simp only [h1]
        generalize (∑ j ∈ range m, (c.getD j 0 : ℂ) * (T ℂ (j : ℕ)).eval z) = S at *
        field_simp
        linear_combination -hS
      · simp [h2]
      · have := T_step z (i.val - 1)
        rw [show i.val - 1 + 2 = i.val + 1 by omega, show i.val - 1 + 1 = i.val by omega] at this
        rw [this]
        ring

end Calc
end Pacal
