import Verif.Regress.Model
import Verif.Depend.Spec
import Mathlib.MeasureTheory.Function.ConditionalExpectation.Basic

/-!
What the user of a regression function expects: variables `Z 0` and `Z 1` on a probability space with the joint density.
-/

open MeasureTheory ProbabilityTheory

namespace Pacal.Regress

variable {Ω : Type*} [MeasurableSpace Ω]

/-- the object describes the joint distribution of `Z 0` and `Z 1` -/
structure Describes (o : Joint) (P : Measure Ω) (Z : ℕ → Ω → ℝ) : Prop where
  two : o.d = 2
  density : Depend.HasDensity o.pdf P (Z 0) (Z 1)
  range : ∀ k, k < 2 → ∀ᵐ ω ∂P, o.lo k ≤ Z k ω ∧ Z k ω ≤ o.hi k

/-- `quantile` solves the equation that defines it -/
def Numerics.Exact (N : Numerics) : Prop :=
  ∀ a b (f : ℝ → ℝ) p, a ≤ b → (∀ y, 0 ≤ f y) → ∫ y in a..b, f y = 1 → 0 < p → p < 1 →
    a ≤ N.quantile a b f p ∧ N.quantile a b f p ≤ b ∧ ∫ y in a..N.quantile a b f p, f y = p

/-- the level of the quantile for a type of `regfun` -/
noncomputable def level : ℕ → Option ℝ
  | 1 => some (1 / 2)
  | 3 => some (25 / 1000)
  | 4 => some (975 / 1000)
  | _ => none

end Pacal.Regress
