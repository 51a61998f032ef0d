import Verif.Graph.Operators
import Mathlib.Data.EReal.Inv

/-!
Model of the ranges stored in random variable objects (`/repo/pacal/rv.py:330-502`), with the numpy
conventions for infinite values: `none` is `nan`.
-/

namespace Pacal
namespace Range
open Operators

open Classical in
/-- numpy multiplication: `0 * inf` is `nan` -/
noncomputable def npMul (x y : EReal) : Option EReal :=
  if (x = 0 ∧ (y = ⊤ ∨ y = ⊥)) ∨ (y = 0 ∧ (x = ⊤ ∨ x = ⊥)) then none else some (x * y)

open Classical in
/-- numpy division: `x / 0.0` is infinite with the sign of `x`, `0.0 / 0.0` and `inf / inf` are `nan`
(the zero of a range is taken to be a positive zero) -/
noncomputable def npDiv (x y : EReal) : Option EReal :=
  if y = 0 then (if 0 < x then some ⊤ else if x < 0 then some ⊥ else none)
  else if (x = ⊤ ∨ x = ⊥) ∧ (y = ⊤ ∨ y = ⊥) then none
  else some (x / y)

/-- `breaks = unique(...); min(breaks), max(breaks)` (rv.py:479-480, 501-502): `unique` sorts `nan` last,
and the builtin `min` and `max` never replace a number by a later `nan`. -/
noncomputable def span (breaks : List (Option EReal)) : Option (EReal × EReal) :=
  match breaks.filterMap id with
  | [] => none
  | x :: xs => some (xs.foldl min x, xs.foldl max x)

/-- `ShiftedScaledRV.__init__` (rv.py:336-338) -/
noncomputable def shiftScale (d : EReal × EReal) (shift scale : ℝ) : EReal × EReal :=
  let a := d.1 * scale + shift
  let b := d.2 * scale + shift
  (min a b, max a b)

/-- `SumRV.__init__` (rv.py:446-448) -/
noncomputable def sum (d₁ d₂ : EReal × EReal) : EReal × EReal := (d₁.1 + d₂.1, d₁.2 + d₂.2)

/-- `SubRV.__init__` (rv.py:463-465); `inf - inf` does not occur for ordered ranges other than in the
combination `a1 - a2` with both infinite, where Python gives `nan` -/
noncomputable def sub (d₁ d₂ : EReal × EReal) : EReal × EReal := (d₁.1 - d₂.1, d₁.2 - d₂.2)

/-- `MulRV.__init__` (rv.py:479-480) -/
noncomputable def mul (d₁ d₂ : EReal × EReal) : Option (EReal × EReal) :=
  span [npMul d₁.1 d₂.1, npMul d₁.1 d₂.2, npMul d₁.2 d₂.1, npMul d₁.2 d₂.2]

/-- the list `d1range` after lines 495-500: 0 is appended when the product of the ends is negative
(a `nan` product is not) -/
noncomputable def withZero (d : EReal × EReal) : List EReal :=
  if d.1 * d.2 < 0 then [d.1, d.2, 0] else [d.1, d.2]

/-- `DivRV.__init__` (rv.py:495-502) -/
noncomputable def div (d₁ d₂ : EReal × EReal) : Option (EReal × EReal) :=
  span ((withZero d₁).flatMap fun x => (withZero d₂).map fun y => npDiv x y)

/-- The range of an object.  `rng i` is the result of the method `range()` of a leaf and `attr i` its
attributes `a, b` (set to `0.0, 1.0` by `RV.__init__`, rv.py:17-20, unless the class sets them); derived
objects have the attributes and inherit the method (rv.py:59-60).  `ShiftedScaledRV` reads the attributes,
the binary operations call the method.  The remaining classes do not set `a, b`. -/
noncomputable def attr (attr₀ rng : ℕ → EReal × EReal) : RExpr → Option (EReal × EReal)
  | .var i => some (attr₀ i)
  | .shiftScale d sh sc => (attr attr₀ rng d).map fun r => shiftScale r sh sc
  | .sum a b => do some (sum (← meth attr₀ rng a) (← meth attr₀ rng b))
  | .sub a b => do some (sub (← meth attr₀ rng a) (← meth attr₀ rng b))
  | .mul a b => do mul (← meth attr₀ rng a) (← meth attr₀ rng b)
  | .div a b => do div (← meth attr₀ rng a) (← meth attr₀ rng b)
  | .exp _ | .log _ | .inv _ | .square _ | .abs _ | .min _ _ | .max _ _ | .const _ => some (0, 1)
where
  /-- the method `range()` (rv.py:59-60): overridden in leaves -/
  meth (attr₀ rng : ℕ → EReal × EReal) : RExpr → Option (EReal × EReal)
  | .var i => some (rng i)
  | e => attr attr₀ rng e

end Range
end Pacal
