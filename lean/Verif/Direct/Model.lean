import Verif.Base.Err
import Verif.Push.Builtin

/-! The methods `pdf(x)` of derived distributions (pacal/distr.py).  They do not look at the piecewise density: each
one asks the distribution below it for the value of its density at a transformed point. -/

namespace Pacal.Direct
open Real Classical

/-- A number handed to `pdf`: `none` is a value that is not finite.  `np` tells numpy floats from Python numbers, which
raise ZeroDivisionError where numpy answers with `inf`.  Simplification: infinite values are not told apart from nan;
in exact arithmetic they arise only from `log(0)` and `1/0`. -/
structure Num where
  val : Option ℝ
  np : Bool

/-- the injective functions with a direct formula: `ExpDistr`, `LogDistr`, `AtanDistr`, `TanhDistr`, `SigmoidDistr`
(distr.py:610-779) and `TanDistr` (distr.py:1048-1058) -/
inductive Func
  | exp | log | atan | tanh | sigmoid | tan
  deriving DecidableEq

/-- `f_inv` of the functions (distr.py:617-618, 639-640, 669-679, 707-717, 758-768, 1054-1055) at a finite scalar: `log`
of a number that is not positive is not finite; outside of the range given in the code the three bounded functions
answer the Python number 0 -/
noncomputable def Func.inv : Func → ℝ → Num
  | .exp, x => ⟨if x ≤ 0 then none else some (expInv x), true⟩
  | .log, x => ⟨some (logInv x), true⟩
  | .atan, x => ⟨some (atanInv x), !decide (x ≤ -π / 2 ∨ x ≥ π / 2)⟩
  | .tanh, x => ⟨some (tanhInv x), !decide (x ≤ -1 ∨ x ≥ 1)⟩
  | .sigmoid, x =>
    if x ≤ -1 ∨ x ≥ 1 then ⟨some 0, false⟩ else ⟨if x / (1 - x) ≤ 0 then none else some (sigmoidInv x), true⟩
  | .tan, x => ⟨some (tanInv x), true⟩

/-- `f_inv_deriv` of the functions (distr.py:619-620, 641-642, 680-690, 718-728, 769-779, 1056-1058) at a finite
scalar: `1.0/abs(x)` and `1.0/(x*(1-x))` divide by 0 for `x = 0` -/
noncomputable def Func.invDeriv : Func → ℝ → Bool → Except PyErr (Option ℝ)
  | .exp, x, np => if x = 0 then (if np then .ok none else .error .zeroDivision) else .ok (some (expInvDeriv x))
  | .log, x, _ => .ok (some (logInvDeriv x))
  | .atan, x, _ => .ok (some (atanInvDeriv x))
  | .tanh, x, _ => .ok (some (tanhInvDeriv x))
  | .sigmoid, x, np => if x = 0 then (if np then .ok none else .error .zeroDivision) else .ok (some (sigmoidInvDeriv x))
  | .tan, x, _ => .ok (some (tanInvDeriv x))

/-- Distributions as far as their method `pdf` is concerned.  `base p`: a distribution that computes its density in its
own way; `p` is its answer, at `none` the one for nan. -/
inductive Expr
  | base (p : Option ℝ → Option ℝ)
  | shifted (shift scale : ℝ) (d : Expr)
  | func (F : Func) (d : Expr)
  | inv (d : Expr)
  | abs (d : Expr)
  | square (d : Expr)

/-- the product or sum of two answers: not finite if one of them is not -/
def both (f : ℝ → ℝ → ℝ) : Option ℝ → Option ℝ → Option ℝ
  | some a, some b => some (f a b)
  | _, _ => none

/-- `ShiftedScaledDistr._1_scale` (distr.py:597-600) -/
noncomputable def oneScale (scale : ℝ) : ℝ := if scale = 1 then 1 else 1.0 / scale

/-- `pdf(x)` for a scalar `x`: `Distr.pdf` and overrides of other classes (`base`), `ShiftedScaledDistr.pdf`
(distr.py:603-604), `FuncDistr.pdf` (distr.py:579-583), `InvDistr.pdf` (distr.py:805-807, 812), `AbsDistr.pdf`
(distr.py:902-907, 912), `SquareDistr.pdf` (distr.py:927-932).  Comparisons with nan are false. -/
noncomputable def Expr.pdf : Expr → Num → Except PyErr (Option ℝ)
  | .base p, x => .ok (p x.val)
  | .shifted shift scale d, x => do
    let y ← d.pdf ⟨x.val.map fun x => (x - shift) * oneScale scale, x.np⟩
    return y.map fun y => |oneScale scale| * y
  | .func F d, x => do
    let y ← d.pdf (match x.val with | some v => F.inv v | none => ⟨none, true⟩)
    let v ← match x.val with | some v => F.invDeriv v x.np | none => .ok none
    return some ((both (fun y v => y * |v|) y v).getD 0)
  | .inv d, x => match x.val with
    | some v =>
      if v = 0 then
        if x.np then do
          let _ ← d.pdf ⟨none, true⟩
          return none
        else .error .zeroDivision
      else do
        let y ← d.pdf ⟨some (1.0 / v), x.np⟩
        return y.map fun y => y / v ^ 2
    | none => do
      let _ ← d.pdf ⟨none, x.np⟩
      return none
  | .abs d, x =>
    if (∃ v, x.val = some v ∧ v < 0) then return some 0
    else do
      let y ← d.pdf ⟨x.val.map fun x => -x, x.np⟩
      let z ← d.pdf x
      return both (fun y z => y + z) y z
  | .square d, x => match x.val with
    | some v =>
      if v ≤ 0 then return some 0
      else do
        let y ← d.pdf ⟨some (-√v), true⟩
        let z ← d.pdf ⟨some (√v), true⟩
        return (both (fun y z => y + z) y z).map fun f => f / (2 * √v)
    | none => do
      let _ ← d.pdf ⟨none, true⟩
      let _ ← d.pdf ⟨none, true⟩
      return none

/-! ### Arrays -/

/-- numpy's rule for combining two arrays of one dimension: equal lengths, or one of them has one entry -/
def broadcast {α β γ : Type} (f : α → β → γ) : List α → List β → Except PyErr (List γ)
  | [a], ys => .ok (ys.map fun b => f a b)
  | xs, [b] => .ok (xs.map fun a => f a b)
  | xs, ys => if xs.length = ys.length then .ok (List.zipWith f xs ys) else .error .value

/-- `y[mask] = v` for an array `y` of zeros and the mask of the entries of `xs` that satisfy `p`: `v` must have as many
entries as the mask or one entry (which is repeated) -/
def assign {α : Type} (p : α → Bool) (xs : List α) (v : List (Option ℝ)) : Except PyErr (List (Option ℝ)) :=
  if v.length = (xs.filter p).length ∨ v.length = 1 then .ok (fill xs v (v.length == 1))
  else .error .value
where
  /-- the entries of the result, from left to right -/
  fill : List α → List (Option ℝ) → Bool → List (Option ℝ)
    | [], _, _ => []
    | x :: xs, v, one =>
      if p x then v.headD (some 0) :: fill xs (if one then v else v.tail) one else some 0 :: fill xs v one

/-- the entry of an array as an argument of `f_inv` and `f_inv_deriv`; the entries are numpy floats -/
noncomputable def Func.invArr (F : Func) : Option ℝ → Option ℝ
  | some x => (F.inv x).val
  | none => match F with
    | .exp | .log | .tan => none
    | _ => some 0

/-- `f_inv_deriv` of an entry: outside the masks of the bounded functions (also for nan) it is 0 -/
noncomputable def Func.invDerivArr (F : Func) : Option ℝ → Option ℝ
  | some x => match F.invDeriv x true with
    | .ok v => v
    | .error _ => none
  | none => match F with
    | .exp | .log | .tan => none
    | _ => some 0

/-- `pdf(x)` for an array `x` of one dimension: `ShiftedScaledDistr.pdf` (distr.py:603-604), `FuncDistr.pdf`
(distr.py:579-580, 584-587), `InvDistr.pdf` (distr.py:808-812), `AbsDistr.pdf` (distr.py:908-912), `SquareDistr.pdf`
(distr.py:927-932).

`InvDistr.pdf` says `y[mask] = y = …`: the value is stored in the old array and then the name `y` is given to the value
itself, which is returned.  `SquareDistr.pdf` asks for the truth value of `x <= 0`, which numpy refuses for arrays of
more than one entry (for an empty array it is taken as false); the number 0 returned for one entry is represented by
an array of one entry. -/
noncomputable def Expr.pdfArr : Expr → List (Option ℝ) → Except PyErr (List (Option ℝ))
  | .base p, xs => .ok (xs.map p)
  | .shifted shift scale d, xs => do
    let ys ← d.pdfArr (xs.map fun x => x.map fun x => (x - shift) * oneScale scale)
    return ys.map fun y => y.map fun y => |oneScale scale| * y
  | .func F d, xs => do
    let ys ← d.pdfArr (xs.map F.invArr)
    let ys ← broadcast (both fun y v => y * |v|) ys (xs.map F.invDerivArr)
    return ys.map fun y => some (y.getD 0)
  | .inv d, xs => do
    let mask : Option ℝ → Bool := fun x => !decide (x = some 0)
    let zs := xs.filter mask
    let ys ← d.pdfArr (zs.map fun x => x.map fun x => 1.0 / x)
    let v ← broadcast (both fun y x => y / x ^ 2) ys zs
    let _ ← assign mask xs v
    return v
  | .abs d, xs => do
    let mask : Option ℝ → Bool := fun x => decide (∃ v, x = some v ∧ 0 ≤ v)
    let zs := xs.filter mask
    let ys ← d.pdfArr (zs.map fun x => x.map fun x => -x)
    let ys' ← d.pdfArr zs
    let v ← broadcast (both fun y z => y + z) ys ys'
    assign mask xs v
  | .square d, xs =>
    if 2 ≤ xs.length then .error .value
    else if (∃ v ∈ xs, ∃ x, v = some x ∧ x ≤ 0) then return [some 0]
    else do
      let rs := xs.map fun x => x.map fun x => √x
      let ys ← d.pdfArr (rs.map fun x => x.map fun x => -x)
      let zs ← d.pdfArr rs
      let s ← broadcast (both fun y z => y + z) ys zs
      broadcast (both fun y r => y / (2 * r)) s rs

/-- `DiscreteDistr.pdf` (distr.py:1077-1083): the probability of the point; nan is not equal to any point -/
noncomputable def discretePdf (px : List (ℝ × ℝ)) : Option ℝ → Option ℝ
  | some x => some ((px.map fun p => if x = p.1 then p.2 else 0).sum)
  | none => some 0

end Pacal.Direct
