import Verif.Iid.Model
import Mathlib.Data.Real.Basic

/-!
Model of the joint density of two order statistics, `IJthOrderStatsNDDistr` (depvars/nddistr.py:805-830).

The piecewise density and distribution function of the sampled variable are given as functions
`f F : ℝ → ℝ`; their interpolation (nddistr.py:813) is the subject of C64 and not repeated here.
-/

namespace Pacal
namespace Order

open Iid

/-- `IJthOrderStatsNDDistr.__init__` (depvars/nddistr.py:809-824) as far as it decides whether the object
exists: the assertion of line 811. -/
def create (n i j : ℕ) : Except PyErr Unit :=
  if 1 ≤ i ∧ i < j ∧ j ≤ n then .ok () else .error .assertion

/-- `IJthOrderStatsNDDistr.pdf` (depvars/nddistr.py:825-830) on an object built with sample size `n` and
ranks `i`, `j`. The mask `x < y` is multiplied as 0 or 1; the exponent `i - 1.0` of line 830 is the
natural number `i - 1` (`0.0 ** 0.0` is 1 as in `ℝ`). -/
noncomputable def pdf (n i j : ℕ) (f F : ℝ → ℝ) (x y : ℝ) : Except PyErr ℝ := do
  create n i j
  let c ← multinomialCoeff n [i - 1, 1, j - i - 1, 1, n - j]
  return (if x < y then 1 else 0) * (c : ℝ) * F x ^ (i - 1) * (F y - F x) ^ (j - i - 1) *
    (1 - F y) ^ (n - j) * f x * f y

end Order
end Pacal
