import Mathlib.MeasureTheory.Integral.IntervalIntegral.Basic

/-!
Model of `NDDistr.condition` and `NDDistr.regfun` (`/repo/pacal/depvars/nddistr.py`) for a joint density of two variables with finite
ranges (the sparse grids need finite ranges).

Simplifications.  The interpolation of `condition` (`NDInterpolatedDistr`, nddistr.py:300, 617-632) and that of the result
(`toInterpolated`, nddistr.py:345) are taken to be exact, and so are the integrals.  `quantile` and `mode` of the conditional
distribution (`FunDistr`, standard_distr.py:26-48) are parameters of the model.  Variables are given by their numbers.
-/

open MeasureTheory

namespace Pacal.Regress

/-- what can happen instead of a result; `nan` stands for the division of 0 by 0 -/
inductive RErr
  | runtime | index | assertion | nan
  deriving DecidableEq

/-- a joint density with its number of variables and their ranges -/
structure Joint where
  d : ℕ
  lo : ℕ → ℝ
  hi : ℕ → ℝ
  pdf : ℝ → ℝ → ℝ

/-- `self(*arg)` for arrays, at one point (nddistr.py:88-93): 0 outside the ranges -/
noncomputable def Joint.call (o : Joint) (x₀ x₁ : ℝ) : ℝ :=
  open Classical in
  if (o.lo 0 ≤ x₀ ∧ x₀ ≤ o.hi 0) ∧ o.lo 1 ≤ x₁ ∧ x₁ ≤ o.hi 1 then o.pdf x₀ x₁ else 0

/-- `_cond_f` (nddistr.py:275-281) for two variables: variable number `c` has the value `x`, the other the value `y` -/
noncomputable def condF (o : Joint) (c : ℕ) (x y : ℝ) : ℝ :=
  if c = 0 then o.call x y else o.call y x

/-- the number of the other variable, `c_var` in `prepare_var` (nddistr.py:113) -/
def other (v : ℕ) : ℕ := if v = 0 then 1 else 0

/-- the number `nrm` of `condition` (nddistr.py:303): `eliminate` of the only variable (nddistr.py:170-181) -/
noncomputable def nrm (o : Joint) (c : ℕ) (x : ℝ) : ℝ := ∫ y in o.lo (other c)..o.hi (other c), condF o c x y

/-- `condition([c], x)` (nddistr.py:286-309) for two variables, as a function of the other variable -/
noncomputable def condition (o : Joint) (c : ℕ) (x : ℝ) : Except RErr (ℝ → ℝ) :=
  open Classical in
  if ¬(o.lo c ≤ x ∧ x ≤ o.hi c) then .error .assertion
  else if nrm o c x = 0 then .error .nan
  else .ok fun y => condF o c x y / nrm o c x

/-- the methods `quantile` and `mode` of `FunDistr` for a density on an interval -/
structure Numerics where
  quantile : ℝ → ℝ → (ℝ → ℝ) → ℝ → ℝ
  mode : ℝ → ℝ → (ℝ → ℝ) → ℝ

/-- the branches of `_fun` (nddistr.py:322-333) for the density `f` on `[a, b]`.  `median` is the quantile of 1/2
(segments.py:1927-1929). -/
noncomputable def summary (N : Numerics) (type : ℕ) (a b : ℝ) (f : ℝ → ℝ) : Except RErr ℝ :=
  match type with
  | 0 => .ok (∫ y in a..b, y * f y)
  | 1 => .ok (N.quantile a b f (1 / 2))
  | 2 => .ok (N.mode a b f)
  | 3 => .ok (N.quantile a b f (25 / 1000))
  | 4 => .ok (N.quantile a b f (975 / 1000))
  | _ => .error .assertion

/-- `regfun(v, type)` (nddistr.py:311-345), called with the number `x`: 0 outside the range of the condition, because the result is a
piecewise function.  An unknown type raises an exception when the result is made. -/
noncomputable def regfun (N : Numerics) (o : Joint) (v type : ℕ) (x : ℝ) : Except RErr ℝ :=
  open Classical in
  if ¬v < o.d then .error .runtime
  else if o.d = 1 then .error .index
  else if o.d ≠ 2 then .error .assertion
  else if 4 < type then .error .assertion
  else if ¬(o.lo (other v) ≤ x ∧ x ≤ o.hi (other v)) then .ok 0
  else do
    let f ← condition o (other v) x
    summary N type (o.lo v) (o.hi v) f

end Pacal.Regress
