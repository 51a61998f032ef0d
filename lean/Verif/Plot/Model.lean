import Verif.Summary.Model
import Mathlib.Analysis.SpecialFunctions.Log.Base

/-!
Model of the points at which a piecewise density is sampled for plots and for comparisons with a theoretical density
(`getSegmentSpace`, `getPiecewiseSpace` in `/repo/pacal/segments.py`, used by `demo_distr`, `/repo/pacal/distr.py:1350`).
Real arithmetic; `logspace` and `linspace` are numpy's.
-/

namespace Pacal.Plot
open Summary

/-- numpy's `linspace(s, e, n)` -/
noncomputable def linspace (s e : ℝ) (n : ℕ) : List ℝ := (List.range n).map fun k : ℕ => s + (k : ℝ) * ((e - s) / ((n : ℝ) - 1))

/-- numpy's `logspace(s, e, n)` -/
noncomputable def logspace (s e : ℝ) (n : ℕ) : List ℝ := (linspace s e n).map fun y => (10 : ℝ) ^ y

open Classical in
/-- `getSegmentSpace` after the ends are known (segments.py:241-253); `eps` is `params.segments.plot.leftRightEpsilon`
(params.py:150) -/
noncomputable def space (eps : ℝ) (n : ℕ) (xmin xmax : ℝ) : List ℝ :=
  if xmin ≥ xmax then []
  else
    let xmin := if xmin = 0 then xmin + eps else xmin
    let xmax := if xmax = 0 then xmax - eps else xmax
    if xmin = 0 ∨ xmax / xmin > 1e2 then logspace (Real.logb 10 |xmin|) (Real.logb 10 |xmax|) n
    else if xmax = 0 ∨ xmin / xmax > 1e2 then (logspace (Real.logb 10 |xmin|) (Real.logb 10 |xmax|) n).map fun x => -x
    else linspace xmin xmax n

/-- `findLeftpoint()` (segments.py:222-223, 505-514); `none`: the loop has not ended within `fuel` rounds -/
noncomputable def leftPoint (ym : ℝ) (fuel : ℕ) : Seg ℝ → Option ℝ
  | .fin _ a _ _ => some a
  | .const a _ _ => some a
  | .minf b f => findLeftpoint ym fuel f b
  | .pinf a _ => some a
  | .dirac a _ => some a

/-- `findRightpoint()` (segments.py:224-225, 591-600) -/
noncomputable def rightPoint (ym : ℝ) (fuel : ℕ) : Seg ℝ → Option ℝ
  | .fin _ _ b _ => some b
  | .const _ b _ => some b
  | .minf b _ => some b
  | .pinf a f => findRightpoint ym fuel f a
  | .dirac a _ => some a

/-- `max(xmin, self.a)` for a number `xmin` -/
noncomputable def maxLo (x : ℝ) : Ext ℝ → ℝ
  | .fin a => max x a
  | _ => x

/-- `min(xmax, self.b)` for a number `xmax` -/
noncomputable def minHi (x : ℝ) : Ext ℝ → ℝ
  | .fin b => min x b
  | _ => x

/-- `getSegmentSpace(xmin, xmax, numberOfPoints)` (segments.py:226-253); `none` for an end stands for Python's `None` -/
noncomputable def segmentSpace (eps ym : ℝ) (fuel n : ℕ) (xmin xmax : Option ℝ) (s : Seg ℝ) : Option (List ℝ) := do
  let lo ← match xmin with
    | none => leftPoint ym fuel s
    | some x => some (maxLo x s.lo)
  let hi ← match xmax with
    | none => rightPoint ym fuel s
    | some x => some (minHi x s.hi)
  some (space eps n lo hi)

/-- `getPiecewiseSpace(xmin, xmax, numberOfPoints)` (segments.py:1331-1342) -/
noncomputable def piecewiseSpace (eps ym : ℝ) (fuel n : ℕ) (xmin xmax : Option ℝ) : PF ℝ → Option (List ℝ)
  | [] => some []
  | s :: l => do
    let a ← segmentSpace eps ym fuel n xmin xmax s
    let b ← piecewiseSpace eps ym fuel n xmin xmax l
    some (a ++ b)

end Pacal.Plot
