import Verif.Quantile.Model
import Verif.Util.Breaks

/-!
Model of the inverse of a distribution function as a piecewise function (`/repo/pacal/segments.py`: `invfun`;
`/repo/pacal/distr.py`: `get_piecewise_invcdf`).

Simplifications.  Interpolation (`toInterpolated`, also of the distribution function) is exact.  All pieces of the result have the same
function, so that its value is that function between the first and the last break point, and 0 elsewhere (segments.py:1062-1073, C01);
poles at the end points (`use_end_poles`) only change the end points themselves.
-/

namespace Pacal
open Transform Filter

namespace Quantile

/-- the list `breakvals` made from `getSegVals` (segments.py:1853-1856); the assignments in lines 1857-1858 change nothing -/
noncomputable def segVals (c : PF ℝ) : List ℝ := c.flatMap fun s => [s.valLo, s.valHi]

/-- `breakvals` before `epsunique` (segments.py:1852-1866); the sorting in line 1862 is repeated by `epsunique` -/
noncomputable def breakVals (c : PF ℝ) (rangeY : Option (List ℝ)) : Except PyErr (List ℝ) :=
  match rangeY with
  | some r => .ok r
  | none =>
    match PF.evalScalar c 0 with
    | none => .error .assertion
    | some x0 => .ok (if x0 ∈ segVals c then segVals c else segVals c ++ [x0])

/-- the finite values -/
def finites (l : List (Ext ℝ)) : List ℝ := l.filterMap fun e => match e with
  | some (some x) => some x
  | _ => none

/-- the break points of the result (segments.py:1874-1877) -/
noncomputable def invBreaks (vals : List ℝ) (includeZero : Bool) : List ℝ :=
  let b := finites (Breaks.epsunique (1 / 10000) (vals.map Ext.fin))
  if includeZero && !decide (0 ∈ b) then b.orderedInsert (· ≤ ·) 0 else b

/-- the value at `u` of `invfun(rangeY=…, include_zero_break=…)` (segments.py:1844-1887).  The assertion is that of
`PiecewiseFunction.__init__` (segments.py:1013). -/
noncomputable def invfun (P : Finding) (c : PF ℝ) (rangeY : Option (List ℝ)) (includeZero : Bool) (u : ℝ) : Except PyErr Flt :=
  (breakVals c rangeY).bind fun vals =>
    match invBreaks vals includeZero with
    | [] => .error .assertion
    | [_] => .error .assertion
    | b :: b' :: bs => if b ≤ u ∧ u ≤ (b' :: bs).getLast (by simp) then inverseScalar P c u else .ok (some 0)

/-- the value at `u` of `get_piecewise_invcdf()` (distr.py:120-126) -/
noncomputable def invcdf (P : Par) (l : PF ℝ) (u : ℝ) : Except PyErr Flt :=
  match PF.cumint P.eps P.q P.qp l with
  | some c => invfun P.find c none true u
  | none => .error .assertion

/-- `rand_invcdf(n)` (distr.py:299-305); the uniform draws are the argument, and `I u x` is the value at `u` of the interpolant (segments.py:1886) of the
inverse, where the inverse itself has the value `x` -/
noncomputable def randInvcdf (P : Par) (I : ℝ → Flt → Flt) (l : PF ℝ) (draws : List ℝ) : Except PyErr (List Flt) :=
  draws.mapM fun u => (invcdf P l u).map (I u)

end Quantile
end Pacal
