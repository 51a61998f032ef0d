import Verif.Moments.Model
import Verif.Standard.Model
import Mathlib.Analysis.SpecialFunctions.Exp

/-!
Model of the moment generating function (`/repo/pacal/distr.py`: `_mgf_fun`, `Distr.mgf`).
-/

namespace Pacal.Summary
open Transform Moments Standard

/-- `_mgf_fun(distr, t)` for a number `t` (distr.py:34-36); `exp` of a number is numpy's (distr.py:623-629).  `none` is NaN. -/
noncomputable def mgfFun (q : Quad) (p : QPar) (l : PF ℝ) (t : ℝ) : Except PyErr (Option ℝ) :=
  meanf q p (fun x => Real.exp (t * x)) l

/-- `_mgf_fun(distr, t)` for an array (distr.py:37-41) -/
noncomputable def mgfFuns (q : Quad) (p : QPar) (l : PF ℝ) (ts : List ℝ) : Except PyErr (List (Option ℝ)) :=
  ts.mapM (mgfFun q p l)

/-- the pieces of `mgf()` (distr.py:176-177): one between any two break points of the density.  All of them have the function
`_mgf_fun`; the constant 1 stands for it, since building the pieces does not call it. -/
noncomputable def mgfPieces (eps : ℝ) (l : PF ℝ) : Option (PF ℝ) := ofFun eps (fun _ => 1) (PF.getBreaks l) none none

/-- `mgf()(t)` for a number `t` (distr.py:176-177 with segments.py:1063-1073); failing to build the pieces is an assertion error
(segments.py:1012) -/
noncomputable def mgfAt (eps : ℝ) (q : Quad) (p : QPar) (l : PF ℝ) (t : ℝ) : Except PyErr (Option ℝ) :=
  match mgfPieces eps l with
  | none => .error .assertion
  | some m =>
    match m.findSegment t with
    | none => .error .index
    | some none => .ok (some 0)
    | some (some _) => mgfFun q p l t

end Pacal.Summary
