import Verif.Quantile.Model
import Verif.Calc.Model

/-!
Model of the extrema of a piecewise function that are found from its derivative (`/repo/pacal/segments.py`: `diff`, `roots`,
`characteristicPoints`, `max_`, `min_`).

The calculus on one piece is a parameter: `interpDiff f a b` interpolates `f` on `[a, b]` and differentiates the interpolator
(`seg.toInterpolatedSegment().diff()`, or `seg.f.diff()` when the piece is interpolated already), `roots` are the roots of an
interpolator.  `chebOps` is the instance used for bounded pieces without poles.
-/

namespace Pacal.Summary
open Quantile Calc

/-- differentiation and root finding on one bounded piece; `I` is the type of interpolators -/
structure CharOps (I : Type) where
  interpDiff : (ℝ → ℝ) → ℝ → ℝ → Except PyErr I
  roots : I → Except PyErr (List ℝ)

/-- `ChebyshevInterpolator(f, a, b).diff()` and `.roots()` (segments.py:180-183, 205-218, 777-780, interpolation.py:151-179);
`N f a b` is the number of nodes on which the adaptive construction stops -/
noncomputable def chebOps (eig : (m : ℕ) → Matrix (Fin m) (Fin m) ℝ → List ℂ) (abstol : ℝ) (N : (ℝ → ℝ) → ℝ → ℝ → ℕ) :
    CharOps Bary where
  interpDiff f a b := diff2 ⟨Nodes.cheb (N f a b) a b, (Nodes.cheb (N f a b) a b).map f, Nodes.chebWeights (N f a b)⟩
  roots := roots2 eig abstol

variable {I : Type}

/-- `PiecewiseFunction.diff` (segments.py:1182-1191): the interpolators of the derivatives of the bounded pieces.  Unbounded
pieces are skipped.  A Dirac is kept as it is (719-720), and then ignored by `roots`, so it is left out here.  The pieces come
from a sorted list and are added in this order, so `addSegment` appends them. -/
def pfDiff (O : CharOps I) : PF ℝ → Except PyErr (List I)
  | [] => .ok []
  | .fin _ a b f :: l => do
    let d ← O.interpDiff f a b
    let ds ← pfDiff O l
    .ok (d :: ds)
  | .const a b c :: l => do
    let d ← O.interpDiff (fun _ => c) a b
    let ds ← pfDiff O l
    .ok (d :: ds)
  | .minf _ _ :: l => pfDiff O l
  | .pinf _ _ :: l => pfDiff O l
  | .dirac _ _ :: l => pfDiff O l

/-- `PiecewiseFunction.roots` of the derivative (segments.py:1192-1197) -/
def pfRoots (O : CharOps I) : List I → Except PyErr (List ℝ)
  | [] => .ok []
  | d :: ds => do
    let r ← O.roots d
    let rs ← pfRoots O ds
    .ok (r ++ rs)

/-- `characteristicPoints` (segments.py:1198-1206): the values `mi` and the points `xi`, two arrays -/
noncomputable def characteristicPoints (O : CharOps I) (l : PF ℝ) : Except PyErr (List ℝ × List (Ext ℝ)) := do
  let df ← pfDiff O l
  let xi ← pfRoots O df
  let mi := xi.map l.evalVec
  let brk := PF.getBreaks l
  .ok (mi ++ l.map Seg.valLo ++ l.map Seg.valHi, xi.map Ext.fin ++ brk.dropLast ++ brk.tail)

/-- the first index of the best value: `p` is the best one so far, `i` the next index -/
noncomputable def bestFrom (lt : ℝ → ℝ → Prop) : ℕ → List ℝ → ℕ × ℝ → ℕ × ℝ
  | _, [], p => p
  | i, y :: ys, p => open Classical in bestFrom lt (i + 1) ys (if lt p.2 y then (i, y) else p)

/-- `max(mi)` and `argmax(mi)` (`min`, `argmin` with the opposite order); a `ValueError` for an empty array -/
noncomputable def best (lt : ℝ → ℝ → Prop) : List ℝ → Except PyErr (ℕ × ℝ)
  | [] => .error .value
  | y :: ys => .ok (bestFrom lt 1 ys (0, y))

/-- `return max(mi), xi[argmax(mi)]` (segments.py:1207-1212) -/
noncomputable def extremum (lt : ℝ → ℝ → Prop) (O : CharOps I) (l : PF ℝ) : Except PyErr (ℝ × Ext ℝ) := do
  let c ← characteristicPoints O l
  let p ← best lt c.1
  match c.2[p.1]? with
  | some x => .ok (p.2, x)
  | none => .error .index

/-- `max_` (segments.py:1207-1209) -/
noncomputable def max_ (O : CharOps I) (l : PF ℝ) : Except PyErr (ℝ × Ext ℝ) := extremum (fun u v => u < v) O l

/-- `min_` (segments.py:1210-1212) -/
noncomputable def min_ (O : CharOps I) (l : PF ℝ) : Except PyErr (ℝ × Ext ℝ) := extremum (fun u v => v < u) O l

end Pacal.Summary
