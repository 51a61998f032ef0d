import Mathlib.Data.Real.Basic
import Mathlib.Data.Nat.Choose.Basic
import Mathlib.Algebra.BigOperators.Intervals

/-!
Specification for the iid operations: what "the operation applied to n copies" means, and the
probability that at least `k` of `n` independent trials succeed.
-/

namespace Pacal
namespace Iid

/-- `X j ∘ X (j+1) ∘ ... ∘ X (j+k)`, bracketed from the left -/
def nfold {β : Type*} (g : β → β → β) (X : ℕ → β) (j : ℕ) : ℕ → β
  | 0 => X j
  | k + 1 => g (nfold g X j k) (X (j + (k + 1)))

/-- probability that at least `k` of `n` independent trials with success probability `p` succeed -/
def atLeast {K : Type*} [Field K] (n k : ℕ) (p : K) : K :=
  ∑ j ∈ Finset.Icc k n, (n.choose j : K) * p ^ j * (1 - p) ^ (n - j)

end Iid
end Pacal
