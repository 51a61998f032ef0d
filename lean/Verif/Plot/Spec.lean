import Verif.Plot.Model

/-! What sample points are meant to be. -/

namespace Pacal.Plot

/-- `n` different points of `[lo, hi]` in increasing order; two or more points reach to within `eps` of both ends -/
structure IsSample (eps lo hi : ℝ) (n : ℕ) (xs : List ℝ) : Prop where
  length : xs.length = n
  increasing : xs.Pairwise (· < ·)
  inside : ∀ x ∈ xs, lo ≤ x ∧ x ≤ hi
  ends : 2 ≤ n → (∃ x ∈ xs, x ≤ lo + eps) ∧ ∃ x ∈ xs, hi - eps ≤ x

/-- an end that is 0 is farther than `eps` from the other end -/
def Apart (eps lo hi : ℝ) : Prop := (lo = 0 → eps < hi) ∧ (hi = 0 → lo < -eps)

/-- the point is in the closed piece -/
def InPiece (x : ℝ) (s : Seg ℝ) : Prop := s.lo ≤ .fin x ∧ .fin x ≤ s.hi

end Pacal.Plot
