import Verif.Nodes.PropsNodes
import Verif.Transform.Model

/-!
Model of the interpolators with a change of variable (`/repo/pacal/interpolation.py:405-425, 505-547, 591-665, 737-888`): they represent the pieces of a
density which are unbounded or have a pole.

Exact real arithmetic, so `expm1(x)` is `exp(x) - 1` and `log1p(x)` is `log(1 + x)`.  `log(0)` (minus infinity in the code) is not
modelled: the theorems assume the function to be nonzero where its logarithm is taken.  Functions act on arrays elementwise.  The debug
output is left out.
-/

namespace Pacal.Asymp
open Nodes Mon Transform Real

/-- a group of settings in `params`: the stopping rule and the node limit -/
structure Setting where
  par : Mon.Par ℝ
  maxn : ℕ

/-- the base classes `ChebyshevInterpolator`, `ChebyshevInterpolatorNoL` and `ChebyshevInterpolatorNoR` -/
inductive Base
  | full | noL | noR

/-- `init_weights` for `m` nodes (interpolation.py:244-248, 296-304, 319-327) -/
noncomputable def Base.weights : Base → ℕ → List ℝ
  | .full => chebWeights
  | .noL => noLWeights
  | .noR => noRWeights

/-- `BarycentricInterpolator.interp_at` for the stored points (interpolation.py:108-112) -/
noncomputable def Base.eval (k : Base) (pts : List (ℝ × ℝ)) (x : ℝ) : Except PyErr ℝ :=
  bary (pts.map Prod.fst) (pts.map Prod.snd) (k.weights pts.length) x

/-- the value in an accuracy test; there are always nodes, hence no errors -/
noncomputable def Base.value (k : Base) (pts : List (ℝ × ℝ)) (x : ℝ) : ℝ :=
  match k.eval pts x with
  | .ok y => y
  | .error _ => 0

/-- the nodes, their refinement, and the values used in the accuracy tests -/
noncomputable def Base.interp (k : Base) (a b : ℝ) : Mon.Interp ℝ :=
  match k with
  | .full => chebInterp a b (Base.value .full)
  | .noL => chebNoLInterp a b (Base.value .noL)
  | .noR => chebNoRInterp a b (Base.value .noR)

/-- an interpolator object: its class and the attributes `Xs`, `Ys` -/
structure Poly where
  base : Base
  pts : List (ℝ × ℝ)

/-- `ChebyshevInterpolator.__init__` (interpolation.py:239-243): adaptive refinement, starting with three nodes and going from
`n` to `2 n - 1` (interpolation.py:195-230) -/
noncomputable def build (s : Setting) (k : Base) (f : ℝ → ℝ) (a b : ℝ) : Except PyErr Poly := do
  let r ← adaptiveInterp s.par (k.interp a b) (fun n => 2 * n - 1) 3 f s.maxn s.maxn
  .ok ⟨k, r.1.pts⟩

/-- `interp_at` of the base class -/
noncomputable def Poly.at (i : Poly) (x : ℝ) : Except PyErr ℝ := i.base.eval i.pts x

/-! ### `_find_zero` -/

/-- the loop of `_find_zero` (interpolation.py:405-425): bisection of `[x_min, x_max]` on a logarithmic scale.  Values are real numbers, so
the tests `isnan` and `isinf` never succeed and there are no overflows. -/
noncomputable def findZeroLoop (f : ℝ → ℝ) (a ymax ymin : ℝ) : ℕ → ℝ → ℝ → Except PyErr ℝ
  | fuel, xMin, xMax =>
    let mid := exp ((log xMin + log xMax) / 2)
    let y := f (a + mid)
    if xMax > xMin * (1 + 1e-5) ∧ (y < ymin ∨ y > ymax) then
      match fuel with
      | 0 => .error .recursion
      | fuel + 1 => if y < ymin then findZeroLoop f a ymax ymin fuel xMin mid else findZeroLoop f a ymax ymin fuel mid xMax
    else .ok (a + mid)

/-- `_find_zero(f, a)` (interpolation.py:405-425); 30 halvings are more than enough (`C72_find_zero`) -/
noncomputable def findZero (f : ℝ → ℝ) (a : ℝ) : Except PyErr ℝ := findZeroLoop f a 1e-120 1e-150 30 1e-5 1e100

/-! ### `LogTransformInterpolator` -/

/-- attributes of a `LogTransformInterpolator` -/
structure LogI where
  origA : ℝ
  origB : ℝ
  offset : ℝ
  poly : Poly

/-- `xt` (interpolation.py:508-509) -/
noncomputable def logXt (offset x : ℝ) : ℝ := (exp x - 1) + offset

/-- `xtinv` (interpolation.py:510-511) -/
noncomputable def logXtinv (offset x : ℝ) : ℝ := log (1 + (x - offset))

/-- `LogTransformInterpolator(f, a, b, offset)` (interpolation.py:512-531); the argument `par` is ignored by the code -/
noncomputable def logI (s : Setting) (f : ℝ → ℝ) (a : ℝ) (b : Option ℝ) (offset : ℝ) : Except PyErr LogI := do
  let b ← match b with
    | some b => .ok b
    | none => findZero f a
  let offset := if a < 0 then a + offset else offset
  let offset := offset - 1
  let q ← build s .noR (fun x => log |f (logXt offset x)|) (logXtinv offset a) (logXtinv offset b)
  .ok ⟨a, b, offset, q⟩

/-- `interp_at` (interpolation.py:532-544) -/
noncomputable def LogI.at (i : LogI) (x : ℝ) : Except PyErr ℝ :=
  if x > i.origB then .ok 0
  else do
    let y ← i.poly.at (logXtinv i.offset x)
    .ok (exp y)

/-- `getNodes` (interpolation.py:545-547) -/
noncomputable def LogI.nodes (i : LogI) : List (ℝ × ℝ) := i.poly.pts.map fun p => (logXt i.offset p.1, exp p.2)

/-! ### interpolators for poles -/

/-- attributes of a `PoleInterpolatorP` or `PoleInterpolatorN` -/
structure PoleI where
  origA : ℝ
  origB : ℝ
  offset : ℝ
  sign : ℝ
  poly : Poly

/-- `numpy.sign` -/
noncomputable def npSign (x : ℝ) : ℝ := if 0 < x then 1 else if x < 0 then -1 else 0

/-- the offset (interpolation.py:604-608, 651-655); `eps` is the machine epsilon, `p` the place of the pole -/
noncomputable def poleOffset (eps p : ℝ) : ℝ := if p = 0 then 1e-50 else |p| * eps

/-- `PoleInterpolatorP.xt` (interpolation.py:592-593) -/
noncomputable def xtP (a offset x : ℝ) : ℝ := (exp x + a) + offset

/-- `PoleInterpolatorP.xtinv` (interpolation.py:594-595) -/
noncomputable def xtinvP (a offset x : ℝ) : ℝ := log ((x - a) + offset)

/-- `PoleInterpolatorP(f, a, b)` (interpolation.py:596-613) -/
noncomputable def poleP (s : Setting) (eps : ℝ) (f : ℝ → ℝ) (a b : ℝ) : Except PyErr PoleI := do
  let sg := npSign (f ((a + b) / 2))
  let sg := if sg = 0 then 1 else sg
  let off := poleOffset eps a
  let q ← build s .noL (fun x => log (1 + sg * f (xtP a off x))) (xtinvP a off a) (xtinvP a off b)
  .ok ⟨a, b, off, sg, q⟩

/-- `PoleInterpolatorP.interp_at` (interpolation.py:614-616) -/
noncomputable def PoleI.atP (i : PoleI) (x : ℝ) : Except PyErr ℝ := do
  let y ← i.poly.at (xtinvP i.origA i.offset x)
  .ok (i.sign * (exp |y| - 1))

/-- `PoleInterpolatorP.getNodes` (interpolation.py:617-618) -/
noncomputable def PoleI.nodesP (i : PoleI) : List (ℝ × ℝ) :=
  i.poly.pts.map fun p => (xtP i.origA i.offset p.1, i.sign * (exp p.2 - 1))

/-- `PoleInterpolatorN.xt` (interpolation.py:641-642) -/
noncomputable def xtN (b offset x : ℝ) : ℝ := (-exp x + b) - offset

/-- `PoleInterpolatorN.xtinv` (interpolation.py:643-644) -/
noncomputable def xtinvN (b offset x : ℝ) : ℝ := log (-(x - b) + offset)

/-- `PoleInterpolatorN(f, a, b)` (interpolation.py:645-660) -/
noncomputable def poleN (s : Setting) (eps : ℝ) (f : ℝ → ℝ) (a b : ℝ) : Except PyErr PoleI := do
  let sg := npSign (f ((a + b) / 2))
  let off := poleOffset eps b
  let q ← build s .noR (fun x => log (1 + sg * f (xtN b off x))) (xtinvN b off a) (xtinvN b off b)
  .ok ⟨a, b, off, sg, q⟩

/-- `PoleInterpolatorN.interp_at` (interpolation.py:661-663) -/
noncomputable def PoleI.atN (i : PoleI) (x : ℝ) : Except PyErr ℝ := do
  let y ← i.poly.at (xtinvN i.origB i.offset x)
  .ok (i.sign * (exp y - 1))

/-- `PoleInterpolatorN.getNodes` (interpolation.py:664-665) -/
noncomputable def PoleI.nodesN (i : PoleI) : List (ℝ × ℝ) :=
  i.poly.pts.map fun p => (xtN i.origB i.offset p.1, exp p.2 - 1)

/-! ### variable transforms and unbounded pieces -/

/-- attributes of a `VarTransformInterpolator` -/
structure VarI where
  vt : VT
  poly : Poly

/-- `VarTransformInterpolator(f, vt)` (interpolation.py:742-752) -/
noncomputable def varI (s : Setting) (f : ℝ → ℝ) (vt : VT) : Except PyErr VarI := do
  let q ← build s .full (fun t => applyScalar vt f t 0 false) vt.varMin vt.varMax
  .ok ⟨vt, q⟩

/-- `interp_at` (interpolation.py:757-760) -/
noncomputable def VarI.at (i : VarI) (x : ℝ) : Except PyErr ℝ := i.poly.at (i.vt.varChange x)

/-- `getNodes` (interpolation.py:761-762); a node at infinity is left out -/
noncomputable def VarI.nodes (i : VarI) : List (ℝ × ℝ) :=
  open Classical in
  (i.poly.pts.filter fun p => p.1 ∉ i.vt.varInf).map fun p => (i.vt.inv p.1, p.2)

/-- attributes of a `PInfInterpolator`: `x_vb_max`, `vb`, `vl`, `U` (`none` is infinity) -/
structure PInfI where
  xVbMax : Option ℝ
  vb : VarI
  vl : Option LogI
  U : Option ℝ

/-- Python's `max` of a list -/
noncomputable def pyMax : List ℝ → Except PyErr ℝ
  | [] => .error .value
  | y :: ys => .ok (ys.foldl max y)

/-- the loop which looks for `x_vb_min` (interpolation.py:824-828) -/
noncomputable def xVbMin (maxY : ℝ) (pts : List (ℝ × ℝ)) : ℝ :=
  open Classical in
  match pts.find? fun p => decide (p.2 > 0 ∧ maxY / p.2 ≤ 1e6) with
  | some p => p.1
  | none => 0

/-- `PInfInterpolator(f, L)` (interpolation.py:799-834), `si` and `sa` are `params.interpolation_infinite` and `params.interpolation_asymp`, `e`
the exponent of the first; the argument `U` is ignored by the code -/
noncomputable def pInfI (si sa : Setting) (e : ℝ) (f : ℝ → ℝ) (L : ℝ) : Except PyErr PInfI := do
  let vt := recP L e none
  let vb ← varI si f vt
  let pts := vb.poly.pts.drop 1
  let maxY ← pyMax (pts.map Prod.snd)
  if maxY ≤ 1e-100 then .ok ⟨none, vb, none, none⟩
  else do
    let m := vt.inv (max (1 / 1e6) (xVbMin maxY pts))
    let vb ← varI si f (recP L e (some m))
    let vl ← logI sa f m none 1
    .ok ⟨some m, vb, some vl, some vl.origB⟩

/-- `interp_at` (interpolation.py:841-855) -/
noncomputable def PInfI.at (i : PInfI) (x : ℝ) : Except PyErr ℝ :=
  match i.xVbMax, i.vl with
  | some m, some vl => if x ≤ m then i.vb.at x else vl.at x
  | some m, none => if x ≤ m then i.vb.at x else .error .attribute
  | none, _ => i.vb.at x

/-- `getNodes` (interpolation.py:858-866) -/
noncomputable def PInfI.nodes (i : PInfI) : List (ℝ × ℝ) :=
  i.vb.nodes ++ match i.vl with
    | some vl => vl.nodes
    | none => []

/-- `MInfInterpolator(f, U)` (interpolation.py:875-883) -/
noncomputable def mInfI (si sa : Setting) (e : ℝ) (f : ℝ → ℝ) (U : ℝ) : Except PyErr PInfI := pInfI si sa e (fun x => f (-x)) (-U)

/-- the attribute `L` of an `MInfInterpolator` (interpolation.py:880), `none` is minus infinity -/
noncomputable def PInfI.lower (i : PInfI) : Option ℝ := i.U.map fun u => -u

/-- `MInfInterpolator.interp_at` (interpolation.py:884-885) -/
noncomputable def PInfI.atM (i : PInfI) (x : ℝ) : Except PyErr ℝ := i.at (-x)

/-- `MInfInterpolator.getNodes` (interpolation.py:886-888) -/
noncomputable def PInfI.nodesM (i : PInfI) : List (ℝ × ℝ) := i.nodes.map fun p => (-p.1, p.2)

end Pacal.Asymp
