import Mathlib.Data.Fintype.Card
import Mathlib.Data.Real.Basic
import Mathlib.Data.Finset.Filter
import Mathlib.MeasureTheory.Measure.Lebesgue.Basic
import Mathlib.MeasureTheory.Measure.WithDensity

/-! What the k-th order statistic of a sample is, and what it means that `f` and `F` describe a law. -/

open MeasureTheory

namespace Pacal
namespace Order

/-- `v` is the `k`-th smallest of the values `x 0, …, x (n-1)`: it is one of them, fewer than `k` values
are smaller, and at least `k` values are at most `v`. -/
def IsKth {n : ℕ} (x : Fin n → ℝ) (k : ℕ) (v : ℝ) : Prop :=
  (∃ m, x m = v) ∧ (Finset.univ.filter fun m => x m < v).card < k ∧
    k ≤ (Finset.univ.filter fun m => x m ≤ v).card

/-- `f` is a density and `F` the distribution function of the law `μ` -/
structure Describes (f F : ℝ → ℝ) (μ : Measure ℝ) : Prop where
  meas : Measurable f
  nonneg : ∀ x, 0 ≤ f x
  law : μ = volume.withDensity fun x => ENNReal.ofReal (f x)
  cdf : ∀ x, F x = (μ (Set.Iic x)).toReal

end Order
end Pacal
