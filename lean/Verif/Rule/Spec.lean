import Mathlib.Data.Real.Basic
import Mathlib.Data.List.Basic

/-!
# Specification for property C64

A quadrature rule is a list of nodes in `[a, b]` and a list of as many weights (for an interval of length 2).
-/

namespace Pacal
namespace Rule

/-- the rule applied to `f`: the weighted sum of its values, scaled to the interval -/
noncomputable def apply (f : ℝ → ℝ) (nodes weights : List ℝ) (a b : ℝ) : ℝ :=
  (List.zipWith (fun x w => f x * w) nodes weights).sum * ((b - a) / 2)

end Rule
end Pacal
