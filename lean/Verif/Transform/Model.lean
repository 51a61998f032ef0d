import Verif.Base.Err
import Mathlib.Analysis.SpecialFunctions.Pow.Real
import Mathlib.Analysis.SpecialFunctions.Sqrt

/-!
Model of the variable transforms (`/repo/pacal/vartransforms.py`).  Exact real arithmetic; the printed
messages of the algebraic transforms are left out.  `/` is the division of Python 3.
-/

namespace Pacal
namespace Transform

/-- a transform object: its three methods and the attributes `var_min`, `var_max`, `var_inf` -/
structure VT where
  varChange : ℝ → ℝ
  inv : ℝ → ℝ
  deriv : ℝ → ℝ
  varMin : ℝ
  varMax : ℝ
  varInf : List ℝ

/-- `VarTransformIdentity` (vartransforms.py:45-56) -/
def identity : VT := ⟨fun x => x, fun t => t, fun _ => 1, -1, 1, []⟩

/-- `VarTransformReciprocal_PMInf` (vartransforms.py:59-82) -/
noncomputable def recPM : VT where
  varChange x := x / (1 + |x|)
  inv t := t / (1 - |t|)
  deriv t := 1 / ((1 - |t|) * (1 - |t|))
  varMin := -1
  varMax := 1
  varInf := [-1, 1]

/-- the offset of the one-sided reciprocal transforms (vartransforms.py:92-95, 133-136) -/
noncomputable def offset (L : ℝ) : ℝ := if L = 0 then 1 else |L| / 2

/-- `VarTransformReciprocal_PInf.var_change` (vartransforms.py:99-107) -/
noncomputable def recPVar (L e x : ℝ) : ℝ :=
  if e = 1 then offset L / (x - L + offset L)
  else if e = 2 then √(offset L / (x - L + offset L))
  else (offset L / (x - L + offset L)) ^ (1 / e)

/-- `VarTransformReciprocal_PInf` (vartransforms.py:83-123) -/
noncomputable def recP (L e : ℝ) (U : Option ℝ) : VT where
  varChange := recPVar L e
  inv t := if e = 1 then L - offset L + offset L / t else L - offset L + offset L / t ^ e
  deriv t := if e = 1 then offset L / (t * t) else offset L * e / t ^ (e + 1)
  varMin := match U with | none => 0 | some U => recPVar L e U
  varMax := 1
  varInf := match U with | none => [0] | some _ => []

/-- `VarTransformReciprocal_MInf.var_change` (vartransforms.py:140-148) -/
noncomputable def recMVar (U e x : ℝ) : ℝ :=
  if e = 1 then -offset U / (x - U - offset U)
  else if e = 2 then √(-offset U / (x - U - offset U))
  else (offset U / |x - U - offset U|) ^ (1 / e)

/-- `VarTransformReciprocal_MInf` (vartransforms.py:124-166) -/
noncomputable def recM (U e : ℝ) (L : Option ℝ) : VT where
  varChange := recMVar U e
  inv t := if e = 1 then U + offset U - offset U / t
    else if e = 2 then U + offset U - offset U / (t * t)
    else U + offset U - offset U / t ^ e
  deriv t := if e = 1 then offset U / (t * t) else offset U * e / t ^ (e + 1)
  varMin := match L with | none => 0 | some L => recMVar U e L
  varMax := 1
  varInf := match L with | none => [0] | some _ => []

/-- `VarTransformAlgebraic_PMInf` (vartransforms.py:173-192); `hypot(c, x)` is the square root of the sum of
squares -/
noncomputable def algPM (c : ℝ) : VT where
  varChange x := x / √(c ^ 2 + x ^ 2)
  inv t := c * t / √(1 - t * t)
  deriv t := c * (t * t / √((1 - t * t) ^ 3) + 1 / √(1 - t * t))
  varMin := -1
  varMax := 1
  varInf := [-1, 1]

/-- `VarTransformAlgebraic_PInf` (vartransforms.py:193-215) -/
noncomputable def algP (L c : ℝ) : VT where
  varChange x := (x - L - c) / (x - L + c)
  inv t := L + c * (1 + t) / (1 - t)
  deriv t := 2 * c / (1 - t) ^ 2
  varMin := -1
  varMax := 1
  varInf := [1]

/-- `VarTransformAlgebraic_MInf` (vartransforms.py:216-239) -/
noncomputable def algM (U c : ℝ) : VT where
  varChange x := (-(x - U) - c) / (-(x - U) + c)
  inv t := U - c * (1 + t) / (1 - t)
  deriv t := 2 * c / (1 - t) ^ 2
  varMin := -1
  varMax := 1
  varInf := [1]

/-- `apply_with_inv_transform` for a scalar `t` (vartransforms.py:24-43); `mask` is `t not in var_inf` -/
noncomputable def applyScalar (vt : VT) (f : ℝ → ℝ) (t defVal : ℝ) (mulByDeriv : Bool) : ℝ :=
  open Classical in
  if t ∈ vt.varInf then defVal
  else if mulByDeriv then f (vt.inv t) * vt.deriv t else f (vt.inv t)

/-- the same for an array: without masked elements `f` is applied to the whole array; otherwise the unmasked
elements are transformed, evaluated and written back (`y[mask] = …; y[~mask] = def_val`).  `f` acts on arrays
elementwise.  The list `vals` holds the values for the unmasked positions in order. -/
noncomputable def scatter (vt : VT) (defVal : ℝ) : List ℝ → List ℝ → List ℝ
  | [], _ => []
  | t :: ts, vals =>
    open Classical in
    if t ∈ vt.varInf then defVal :: scatter vt defVal ts vals
    else match vals with
      | v :: vals => v :: scatter vt defVal ts vals
      | [] => []

noncomputable def applyArray (vt : VT) (f : ℝ → ℝ) (ts : List ℝ) (defVal : ℝ) (mulByDeriv : Bool) : List ℝ :=
  open Classical in
  let vals := fun us : List ℝ => if mulByDeriv then us.map fun t => f (vt.inv t) * vt.deriv t
    else us.map fun t => f (vt.inv t)
  if ∃ t ∈ ts, t ∈ vt.varInf then scatter vt defVal ts (vals (ts.filter fun t => t ∉ vt.varInf))
  else vals ts

/-- `_integrate_with_vartransform` (integration.py:204-209): the integrator gets the transformed integrand, with
value 0 at infinity and multiplied by the derivative factor, on `[var_min, var_max]` -/
noncomputable def integrateWith {R : Type*} (integrator : (ℝ → ℝ) → ℝ → ℝ → R) (vt : VT) (f : ℝ → ℝ) : R :=
  integrator (fun t => applyScalar vt f t 0 true) vt.varMin vt.varMax

end Transform
end Pacal
