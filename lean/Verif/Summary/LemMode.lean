import Verif.Summary.LemHump
import Verif.Law.PropsCdf
import Verif.Quantile.Example

/-!
Specification and lemmas for `Verif.Summary.PropsMode`.
-/

namespace Pacal.Summary
open Filter Topology Set MeasureTheory

/-- a value of the density at a point is attained in the sense of `Attains` -/
theorem attains_of_val {s : Seg ℝ} {y : ℝ} (h : s.val y ≠ 0) : Attains s (y : EReal) (s.val y) := by
  have hc : s.isDirac = false ∧ s.lo ≤ .fin y ∧ .fin y < s.hi := by
    by_contra hc
    exact h (if_neg hc)
  have hv : s.val y = s.fn y := if_pos hc
  rw [hv]
  obtain ⟨h1, h2, h3⟩ := hc
  cases s with
  | fin p a b f => exact ⟨y, rfl, extFin_le.1 h2, extFin_le.1 h3.le, rfl⟩
  | const a b c => exact ⟨y, rfl, extFin_le.1 h2, extFin_le.1 h3.le, rfl⟩
  | minf b f => exact .inl ⟨y, rfl, extFin_le.1 h3.le, rfl⟩
  | pinf a f => exact .inl ⟨y, rfl, extFin_le.1 h2, rfl⟩
  | dirac a m => simp [Seg.isDirac] at h1

/-- the uniform density on [3/2, 5/2], given as a single piece reaching to infinity -/
noncomputable def late : ℝ → ℝ := (Icc (3 / 2) (5 / 2)).indicator fun _ => 1

theorem late_zero {x : ℝ} (h : x ≤ 1) : late x = 0 := by
  rw [late, indicator_of_notMem]
  rintro ⟨h1, -⟩
  linarith

end Pacal.Summary
