import Verif.Base.Err
import Mathlib.Analysis.SpecialFunctions.Pow.Real

/-!
Model of the operators of `Distr` (`/repo/pacal/distr.py:410-522`), which override those of `RV`
(`/repo/pacal/rv.py:182-291`).  Only the choice of the resulting object is modelled; numbers are real
numbers, `1.0 / 0` raises `ZeroDivisionError` (a Python float or int as operand).
-/

namespace Pacal
namespace Operators

/-- the classes of random variable objects created by the operators; `var i` is any other object -/
inductive RExpr
  | var (i : ℕ)
  | shiftScale (d : RExpr) (shift scale : ℝ)
  | exp (d : RExpr)
  | log (d : RExpr)
  | inv (d : RExpr)
  | square (d : RExpr)
  | abs (d : RExpr)
  | sum (d₁ d₂ : RExpr)
  | sub (d₁ d₂ : RExpr)
  | mul (d₁ d₂ : RExpr)
  | div (d₁ d₂ : RExpr)
  | min (d₁ d₂ : RExpr)
  | max (d₁ d₂ : RExpr)
  | const (c : ℝ)

/-- an operand or result: a Python number or a random variable -/
inductive Val
  | num (r : ℝ)
  | rv (e : RExpr)

/-- `ShiftedScaledDistr(d, shift, scale)` (distr.py:594-595): `assert(scale != 0)` -/
noncomputable def mkShiftScale (d : RExpr) (shift scale : ℝ) : Except PyErr RExpr :=
  if scale ≠ 0 then .ok (.shiftScale d shift scale) else .error .assertion

/-- `LogDistr(d)` (rv.py:369-372, distr.py:631): `nonneg` is `is_nonneg()` -/
def mkLog (nonneg : RExpr → Bool) (d : RExpr) : Except PyErr RExpr :=
  if nonneg d then .ok (.log d) else .error .value

/-- `-X` (distr.py:410-412) -/
noncomputable def neg (x : RExpr) : Except PyErr Val := (mkShiftScale x 0 (-1)).map .rv

/-- `X + d` and `d + X` (distr.py:416-427) -/
noncomputable def add : Val → Val → Except PyErr Val
  | .rv x, .rv y => .ok (.rv (.sum x y))
  | .rv x, .num d => (mkShiftScale x d 1).map .rv
  | .num d, .rv x => (mkShiftScale x d 1).map .rv
  | .num a, .num b => .ok (.num (a + b))

/-- `X - d` and `d - X` (distr.py:428-439) -/
noncomputable def sub : Val → Val → Except PyErr Val
  | .rv x, .rv y => .ok (.rv (.sub x y))
  | .rv x, .num d => (mkShiftScale x (-d) 1).map .rv
  | .num d, .rv x => (mkShiftScale x d (-1)).map .rv
  | .num a, .num b => .ok (.num (a - b))

open Classical in
/-- `X * d` and `d * X` (distr.py:440-459); `d * X` has the extra case `d == 1` -/
noncomputable def mul : Val → Val → Except PyErr Val
  | .rv x, .rv y => .ok (.rv (.mul x y))
  | .rv x, .num d => if d = 0 then .ok (.num 0) else (mkShiftScale x 0 d).map .rv
  | .num d, .rv x =>
    if d = 0 then .ok (.num 0) else if d = 1 then .ok (.rv x) else (mkShiftScale x 0 d).map .rv
  | .num a, .num b => .ok (.num (a * b))

open Classical in
/-- `X / d` and `d / X` (distr.py:460-485) -/
noncomputable def div : Val → Val → Except PyErr Val
  | .rv x, .rv y => .ok (.rv (.div x y))
  | .rv x, .num d =>
    if d = 1 then .ok (.rv x)
    else if d = 0 then .error .zeroDivision
    else (mkShiftScale x 0 (1 / d)).map .rv
  | .num d, .rv x => if d = 0 then .ok (.num 0) else mul (.num d) (.rv (.inv x))
  | .num a, .num b => if b = 0 then .error .zeroDivision else .ok (.num (a / b))

open Classical in
/-- `X ** d` and `d ** X` (distr.py:494-522); powers of two numbers are not the library's business and
are left out (`typ`) -/
noncomputable def pow (nonneg : RExpr → Bool) : Val → Val → Except PyErr Val
  | .rv x, .rv y => do
    let l ← mkLog nonneg x
    .ok (.rv (.exp (.mul l y)))
  | .rv x, .num d =>
    if d = 0 then .ok (.num 1)
    else if d = 1 then .ok (.rv x)
    else if d = -1 then .ok (.rv (.inv x))
    else if d = 2 then .ok (.rv (.square x))
    else do
      let l ← mkLog nonneg x
      let s ← mkShiftScale l 0 d
      .ok (.rv (.exp s))
  | .num x, .rv d =>
    if x = 0 then .ok (.num 0)
    else if x = 1 then .ok (.num 1)
    else if x < 0 then .error .value
    else do
      let s ← mkShiftScale d 0 (Real.log x)
      .ok (.rv (.exp s))
  | .num _, .num _ => .error .typ

/-- `abs(X)` (distr.py:413-415) -/
def absOp (x : RExpr) : Except PyErr Val := .ok (.rv (.abs x))

/-- `min(d1, d2)` of two arguments (distr.py:1189-1205) -/
noncomputable def minOp : Val → Val → Except PyErr Val
  | .rv x, .rv y => .ok (.rv (.min x y))
  | .rv x, .num d => .ok (.rv (.min x (.const d)))
  | .num d, .rv x => .ok (.rv (.min (.const d) x))
  | .num a, .num b => .ok (.num (Min.min a b))

/-- `max(d1, d2)` of two arguments (distr.py:1207-1223) -/
noncomputable def maxOp : Val → Val → Except PyErr Val
  | .rv x, .rv y => .ok (.rv (.max x y))
  | .rv x, .num d => .ok (.rv (.max x (.const d)))
  | .num d, .rv x => .ok (.rv (.max (.const d) x))
  | .num a, .num b => .ok (.num (Max.max a b))

/-- `sqrt(X)` (distr.py:942-946) -/
noncomputable def sqrtOp (nonneg : RExpr → Bool) (x : RExpr) : Except PyErr Val :=
  if nonneg x then pow nonneg (.rv x) (.num (1 / 2)) else .error .value

/-- outcome of an object for given outcomes of the variables (the `rand_op` methods: distr.py:605, 810,
913, 934, 1128-1184, `ExpDistr.f` 617, `LogDistr.f` 640) -/
noncomputable def den (env : ℕ → ℝ) : RExpr → ℝ
  | .var i => env i
  | .shiftScale d sh sc => sc * den env d + sh
  | .exp d => Real.exp (den env d)
  | .log d => Real.log (den env d)
  | .inv d => 1 / den env d
  | .square d => den env d * den env d
  | .abs d => |den env d|
  | .sum a b => den env a + den env b
  | .sub a b => den env a - den env b
  | .mul a b => den env a * den env b
  | .div a b => den env a / den env b
  | .min a b => Min.min (den env a) (den env b)
  | .max a b => Max.max (den env a) (den env b)
  | .const c => c

/-- outcome of an operand -/
noncomputable def Val.den (env : ℕ → ℝ) : Val → ℝ
  | .num r => r
  | .rv e => Operators.den env e

end Operators
end Pacal
