import Mathlib.Analysis.SpecialFunctions.Exp
import Mathlib.Data.Nat.Choose.Basic

/-!
Independent specification: the textbook probabilities of the discrete distributions.
-/

namespace Pacal.Standard.Textbook

/-- binomial probability of `k` successes in `n` trials -/
noncomputable def binomial (n : ℕ) (p : ℝ) (k : ℕ) : ℝ := (n.choose k : ℝ) * p ^ k * (1 - p) ^ (n - k)

/-- Poisson probability of `k` -/
noncomputable def poisson (lmbda : ℝ) (k : ℕ) : ℝ := Real.exp (-lmbda) * lmbda ^ k / (k.factorial : ℝ)

/-- the table of the points `0, …, n - 1` with the given probabilities -/
def table (n : ℕ) (f : ℕ → ℝ) : List (ℝ × ℝ) := (List.range n).map fun k : ℕ => ((k : ℝ), f k)

end Pacal.Standard.Textbook
