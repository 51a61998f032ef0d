import Mathlib.Data.Real.Basic

/-!
Model of the names of expressions (`getName`, `/repo/pacal/rv.py:294-537`, `/repo/pacal/distr.py:917-979, 1119-1120`), which
are printed by `summary` and used as titles of plots.

A name is a list of tokens.  The names of variables that are not computed from others, such as `N(0,1)`, are one token.
Numbers are printed by `format`; a negative number is a minus sign followed by its absolute value.
-/

namespace Pacal.Names

/-- names of functions in calls -/
inductive Fn
  | sqr | sign | exp | log | atan | tanh | tan | sin | cos
  deriving DecidableEq

/-- functions of distributions -/
inductive Func
  | exp | log | atan | tanh | sigmoid | tan | sin | cos
  deriving DecidableEq

/-- `fname` of `ExpDistr` (distr.py:614), `LogDistr` (636), `AtanDistr` (665), `TanhDistr` (703), `SigmoidDistr` (742), `TanDistr` (1051),
`SinDistr` (1016) and `CosDistr` (1039) -/
def Func.fname : Func → Fn
  | .exp => .exp
  | .log => .log
  | .atan => .atan
  | .tanh => .tanh
  | .sigmoid => .tanh
  | .tan => .tan
  | .sin => .sin
  | .cos => .cos

/-- tokens -/
inductive Tok
  | num (x : ℝ) | var (i : ℕ) | fn (f : Fn) | min | max
  | plus | minus | star | slash | lpar | rpar | comma | bar

/-- Expressions.  `func` are the functions that `FuncDistr` (distr.py:560-563) and `FuncNoninjectiveDistr` (951-963) stand for,
`affine d scale shift` is `ShiftedScaledRV` (rv.py:330-358).  The powers `PowRV`, which no operation on distributions
creates, and conditional distributions are not modelled. -/
inductive Obj
  | leaf (i : ℕ)
  | affine (d : Obj) (scale shift : ℝ)
  | func (f : Func) (d : Obj)
  | inv (d : Obj)
  | abs (d : Obj)
  | sign (d : Obj)
  | square (d : Obj)
  | sum (d₁ d₂ : Obj)
  | sub (d₁ d₂ : Obj)
  | mul (d₁ d₂ : Obj)
  | div (d₁ d₂ : Obj)
  | min (d₁ d₂ : Obj)
  | max (d₁ d₂ : Obj)

/-- `"{0}".format(x)` -/
noncomputable def fmt (x : ℝ) : List Tok := if x < 0 then [.minus, .num (-x)] else [.num x]

/-- `"{0:+}".format(x)` -/
noncomputable def fmtSigned (x : ℝ) : List Tok := if x < 0 then [.minus, .num (-x)] else [.plus, .num x]

/-- `"(" + name + ")"` -/
def wrap (t : List Tok) : List Tok := .lpar :: t ++ [.rpar]

/-- `isinstance(d, OpRV) and not isinstance(d, (FuncRV, SquareRV))` (rv.py:300, 395) for distributions: `AbsDistr`,
`SquareDistr` and the functions that are not injective derive from `OpDistr` (distr.py:546, 897, 920, 951), which is not an
`OpRV`, and `SignDistr` from `DiscreteDistr` (1101) -/
def Obj.isOp : Obj → Bool
  | .affine .. | .inv _ | .sum .. | .sub .. | .mul .. | .div .. | .min .. | .max .. => true
  | _ => false

/-- `isinstance(d, SumRV)` -/
def Obj.isSum : Obj → Bool
  | .sum .. => true
  | _ => false

/-- `isinstance(d, (SumRV, SubRV, ShiftedScaledRV))` -/
def Obj.isLinear : Obj → Bool
  | .sum .. | .sub .. | .affine .. => true
  | _ => false

/-- `_wrapped_name(d)` and `_wrapped_name(d, incl_classes)` (rv.py:294-302), given the name of `d` and whether the class of `d` is
to be wrapped -/
def wrapIf (b : Bool) (t : List Tok) : List Tok := if b then wrap t else t

/-- `getName()`: `ShiftedScaledRV` (rv.py:349-358), `FuncRV` (324-325), functions that are not injective (distr.py:978-979), `InvRV`
(rv.py:393-397), `AbsDistr` (distr.py:917-918), `SignDistr` (1119-1120), `SquareDistr` (938-939), `SumRV` (rv.py:453-454), `SubRV` (470-472),
`MulRV` (485-488), `DivRV` (507-510), `MinRV` (522-523), `MaxRV` (534-535) -/
noncomputable def Obj.name : Obj → List Tok
  | .leaf i => [.var i]
  | .affine d scale shift =>
    open Classical in
    if shift = 0 ∧ scale = 1 then d.name
    else
      let n := wrapIf d.isOp d.name
      if shift = 0 then fmt scale ++ .star :: n
      else if scale = 1 then n ++ fmtSigned shift
      else fmt scale ++ .star :: (n ++ .plus :: fmt shift)
  | .func f d => .fn f.fname :: wrap d.name
  | .inv d => wrap (.num 1 :: .slash :: wrapIf d.isOp d.name)
  | .abs d => .bar :: d.name ++ [.bar]
  | .sign d => .fn .sign :: wrap d.name
  | .square d => .fn .sqr :: wrap d.name
  | .sum d₁ d₂ => d₁.name ++ .plus :: d₂.name
  | .sub d₁ d₂ => d₁.name ++ .minus :: wrapIf d₂.isSum d₂.name
  | .mul d₁ d₂ => wrapIf d₁.isLinear d₁.name ++ .star :: wrapIf d₂.isLinear d₂.name
  | .div d₁ d₂ => wrapIf d₁.isOp d₁.name ++ .slash :: wrapIf d₂.isOp d₂.name
  | .min d₁ d₂ => .min :: .lpar :: (d₁.name ++ .comma :: d₂.name) ++ [.rpar]
  | .max d₁ d₂ => .max :: .lpar :: (d₁.name ++ .comma :: d₂.name) ++ [.rpar]

end Pacal.Names
