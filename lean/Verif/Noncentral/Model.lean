import Verif.Identity.Model

/-!
Model of the noncentral distributions (`/repo/pacal/stats/noncentral_distr.py`): each class builds an expression of independent
random variables with normal and chi-square distributions.
-/

namespace Pacal.Noncentral
open Standard Identity

/-- `X / d` for a number `d` (distr.py:460-468) -/
noncomputable def divNum (e : Expr) (d : ℝ) : Expr := if d = 1 then e else .step (.shiftScale 0 (1 / d)) e

/-- `ZeroDistr()` (standard_distr.py:904-907, distr.py:1225-1228) -/
def zeroDistr : Expr := .discrete [(0, 1)]

/-- `NoncentralTDistr(df, mu)` (noncentral_distr.py:9-15).  `sqrt(X)` (distr.py:942-946) raises an error unless `X` is nonnegative, as
does the logarithm by which `X ** 0.5` is computed. -/
noncomputable def noncentralT (df mu : ℝ) : Expr :=
  .div (.dist (.normal mu 1)) (.step (.pow 0.5) (divNum (.dist (.chiSquare df)) df))

/-- `NoncentralChiSquareDistr(df, lmbda)` (noncentral_distr.py:21-31); `none` if the assertion fails.  For `lmbda < 0`
`numpy.sqrt` gives `nan`; this is not modelled, here also `none`. -/
noncomputable def noncentralChiSquare (df lmbda : ℝ) : Option Expr :=
  if 1 ≤ df ∧ 0 ≤ lmbda then
    let d1 : Expr := .step (.pow 2) (.dist (.normal (Real.sqrt lmbda) 1))
    let d2 : Expr := if df > 1 then .dist (.chiSquare (df - 1)) else zeroDistr
    some (.add d1 d2)
  else none

/-- `NoncentralBetaDistr(alpha, beta, lmbda)` (noncentral_distr.py:37-43) -/
noncomputable def noncentralBeta (alpha beta lmbda : ℝ) : Option Expr :=
  (noncentralChiSquare (2 * alpha) lmbda).map fun d =>
    .step .inv (.step (.shiftScale 1 1) (.div (.dist (.chiSquare (2 * beta))) d))

/-- `NoncentralFDistr(df1, df2, lmbda)` (noncentral_distr.py:49-56) -/
noncomputable def noncentralF (df1 df2 lmbda : ℝ) : Option Expr :=
  (noncentralChiSquare df1 lmbda).map fun d => .div (divNum d df1) (divNum (.dist (.chiSquare df2)) df2)

end Pacal.Noncentral
