import Verif.Law.Arrays
import Verif.Push.Builtin

/-!
Model of `rand_op` of derived distributions (`/repo/pacal/distr.py`): samples of an expression computed from samples of its variables.

* Samples are arrays of floats of one dimension, given as lists; exact arithmetic.
* The samples of the variables have been drawn and are in the cache (which variable is drawn when: `Verif/Graph/Model.lean`).
* numpy's functions of arrays are elementwise.  Division by 0 and logarithms of numbers that are not positive have no meaning here.
-/

namespace Pacal.Sample
open Real

/-- functions of one variable.  The injective ones with `f` of their classes (distr.py:615-616, 637-638, 667-668, 705-706, 744-757,
1052-1053), reciprocals, absolute values and squares, shifts, and the functions with two branches -/
inductive Op1
  | exp | log | atan | tanh | sigmoid | tan | inv | abs | square | sin | cos
  | shifted (shift scale : ℝ)

/-- `SumDistr`, `SubDistr`, `MulDistr`, `DivDistr`, `MinDistr`, `MaxDistr` -/
inductive Op2
  | sum | sub | mul | div | min | max

/-- `intervals` of `SinDistr` (distr.py:1011) and `CosDistr` (distr.py:1034) with the two equal functions `fs` -/
noncomputable def sinIntervals : List (ℝ × ℝ) := [(-π / 2, π / 2), (π / 2, 3 * π / 2)]
@[inherit_doc sinIntervals] noncomputable def cosIntervals : List (ℝ × ℝ) := [(0, π), (π, 2 * π)]

/-- the loop of `FuncNoninjectiveDistr.rand_op` (distr.py:983-985) -/
noncomputable def branchLoop (f : ℝ → ℝ) (xs : List ℝ) : List (ℝ × ℝ) → List ℝ → List ℝ
  | [], ys => ys
  | (a, b) :: l, ys =>
    let mask := open Classical in xs.map fun x => decide (a ≤ x) && decide (x ≤ b)
    branchLoop f xs l (PF.putMask false mask ys ((PF.select mask xs).map f))

/-- `FuncNoninjectiveDistr.rand_op` (distr.py:980-986) -/
noncomputable def noninjective (intervals : List (ℝ × ℝ)) (f : ℝ → ℝ) (xs : List ℝ) : List ℝ :=
  branchLoop f xs intervals (xs.map fun _ => 0)

/-- `SigmoidDistr.f` on an array (distr.py:751-757) -/
noncomputable def sigmoidArray (xs : List ℝ) : List ℝ :=
  let mask := open Classical in xs.map fun x => decide (x > 0)
  let ys := PF.putMask false mask (xs.map fun _ => 0) ((PF.select mask xs).map fun x => 1 / (1 + Real.exp (-x)))
  let ex := (PF.select (mask.map not) xs).map Real.exp
  PF.putMask false (mask.map not) ys (ex.map fun e => e / (e + 1))

/-- `rand_op` for the samples `xs` of the argument: `FuncDistr` (distr.py:588-589), `ShiftedScaledDistr` (605-606), `InvDistr` (813-814),
`AbsDistr` (913-914), `SquareDistr` (933-935), `FuncNoninjectiveDistr` (980-986) -/
noncomputable def Op1.rand : Op1 → List ℝ → List ℝ
  | .exp, xs => xs.map Real.exp
  | .log, xs => xs.map Real.log
  | .atan, xs => xs.map arctan
  | .tanh, xs => xs.map Real.tanh
  | .sigmoid, xs => sigmoidArray xs
  | .tan, xs => xs.map Real.tan
  | .inv, xs => xs.map fun x => 1 / x
  | .abs, xs => xs.map fun x => |x|
  | .square, xs => List.zipWith (· * ·) xs xs
  | .sin, xs => noninjective sinIntervals Real.sin xs
  | .cos, xs => noninjective cosIntervals Real.cos xs
  | .shifted shift scale, xs => (xs.map fun x => scale * x).map fun x => x + shift

/-- `rand_op` of the operations on two distributions (distr.py:1128-1131, 1138-1141, 1149-1152, 1160-1163, 1170-1173, 1180-1184) -/
noncomputable def Op2.rand : Op2 → List ℝ → List ℝ → List ℝ
  | .sum, xs, ys => List.zipWith (· + ·) xs ys
  | .sub, xs, ys => List.zipWith (· - ·) xs ys
  | .mul, xs, ys => List.zipWith (· * ·) xs ys
  | .div, xs, ys => List.zipWith (· / ·) xs ys
  | .min, xs, ys => List.zipWith (fun x y => if x ≤ y then x else y) xs ys
  | .max, xs, ys => List.zipWith (fun x y => if x ≤ y then y else x) xs ys

/-- expressions in variables -/
inductive Expr
  | var (i : ℕ)
  | one (o : Op1) (e : Expr)
  | two (o : Op2) (e e' : Expr)

/-- `rand(n, cache)` of an expression (distr.py:588-589, 1128-1131, …) for the samples of the variables in the cache -/
noncomputable def Expr.rand (draws : ℕ → List ℝ) : Expr → List ℝ
  | .var i => draws i
  | .one o e => o.rand (e.rand draws)
  | .two o e e' => o.rand (e.rand draws) (e'.rand draws)

end Pacal.Sample
