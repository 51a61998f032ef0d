import Verif.Base.Err
import Mathlib.Analysis.SpecialFunctions.Pow.Real
import Mathlib.Analysis.SpecialFunctions.Trigonometric.Arctan
import Mathlib.Data.Real.Sign

/-!
Model of random variables without a distribution (`/repo/pacal/rv.py`): the operators of `RV`, the constructors of the
variables they make, and the exported functions of `/repo/pacal/distr.py` applied to them.

* A variable is given by its identity, its symbolic expression (`sym`), its parents and whether it is an `ExpRV` (the only
  class of `rv.py` with a method `is_nonneg`).
* `norm` is the simplification done by sympy when an expression is built.
* Names and ranges are modelled elsewhere (`Verif/Names`, `Verif/Graph`).
* The new variables made by a call get the identities `i`, `i + 1`, …; they have to be fresh.
-/

namespace Pacal.Symbolic

/-- sympy expressions: symbols are identities of variables -/
inductive Sym
  | sym (i : ℕ)
  | num (c : ℝ)
  | add (a b : Sym)
  | sub (a b : Sym)
  | mul (a b : Sym)
  | div (a b : Sym)
  | exp (a : Sym)
  | log (a : Sym)
  | atan (a : Sym)
  | tanh (a : Sym)
  | sign (a : Sym)
  | pow (a : Sym) (e : ℝ)
  | min (a b : Sym)
  | max (a b : Sym)

/-- `is_Atom` of sympy: symbols and numbers -/
def Sym.isAtom : Sym → Bool
  | .sym _ => true
  | .num _ => true
  | _ => false

/-- a random variable and its parents: none; a list of one or of two; a list that contains a list (`PowRV`, rv.py:402);
a variable in the place of the list (`SignRV`, rv.py:423) -/
inductive Node
  | leaf (id : ℕ)
  | one (id : ℕ) (isExp : Bool) (sym : Sym) (p : Node)
  | two (id : ℕ) (sym : Sym) (p q : Node)
  | nested (id : ℕ) (sym : Sym) (p : Node)
  | bare (id : ℕ) (sym : Sym) (p : Node)

/-- `id()` (rv.py:35-44) -/
def Node.id : Node → ℕ
  | .leaf i | .one i _ _ _ | .two i _ _ _ | .nested i _ _ | .bare i _ _ => i

/-- `getSym()` (rv.py:66-68); the default of the constructor is a symbol of its own (rv.py:27) -/
def Node.sym : Node → Sym
  | .leaf i => .sym i
  | .one _ _ s _ | .two _ s _ _ | .nested _ s _ | .bare _ s _ => s

/-- `getSymname()` (rv.py:28-33, 83-84): atomic expressions are their own names -/
def Node.symname (n : Node) : Sym := if n.sym.isAtom then n.sym else .sym n.id

/-- the loop `for p in self.parents: p.…` as in `getAncestorIDs` (rv.py:50-57): a list has no method `id`, a variable
cannot be iterated over -/
def Node.parents : Node → Except PyErr (List Node)
  | .leaf _ => .ok []
  | .one _ _ _ p => .ok [p]
  | .two _ _ p q => .ok [p, q]
  | .nested _ _ _ => .error .attribute
  | .bare _ _ _ => .error .typ

/-- `is_nonneg()`: only `ExpRV` has it (rv.py:365-366) -/
def Node.isNonneg : Node → Except PyErr Bool
  | .one _ true _ _ => .ok true
  | _ => .error .attribute

/-- a number or a variable -/
inductive Val
  | num (r : ℝ)
  | rv (n : Node)

variable (norm : Sym → Sym)

/-- `ShiftedScaledRV(d, shift, scale)` (rv.py:331-335) -/
noncomputable def mkShift (i : ℕ) (d : Node) (shift scale : ℝ) : Except PyErr Node :=
  open Classical in
  if scale ≠ 0 then .ok (.one i false (norm (.add (.mul d.symname (.num scale)) (.num shift))) d)
  else .error .assertion

/-- `ExpRV(d)` (rv.py:363-364) -/
def mkExp (i : ℕ) (d : Node) : Node := .one i true (norm (.exp d.symname)) d

/-- `LogRV(d)` (rv.py:369-372) -/
def mkLog (i : ℕ) (d : Node) : Except PyErr Node := do
  let b ← d.isNonneg
  if b then .ok (.one i false (norm (.log d.symname)) d) else .error .value

/-- `InvRV(d)` (rv.py:386-388) -/
def mkInv (i : ℕ) (d : Node) : Node := .one i false (norm (.div (.num 1) d.symname)) d

/-- `SquareRV(d)` (rv.py:431-433) -/
def mkSquare (i : ℕ) (d : Node) : Node := .one i false (norm (.pow d.symname 2)) d

/-- `SumRV(d1, d2)` and so on (rv.py:442-443, 459-460, 477-478, 493-494, 515-516, 528-529) -/
def mkTwo (f : Sym → Sym → Sym) (i : ℕ) (d e : Node) : Node := .two i (norm (f d.symname e.symname)) d e

/-- the binary operators and functions -/
inductive Op2
  | add | sub | mul | div | pow | min | max

open Classical in
/-- the operators `+ - * / **` (rv.py:191-291) and `min`, `max` with two arguments (distr.py:1189-1223, which for random
variables without distribution use rv.py:540-562).  Powers of two numbers are not the library's and are left out
(`typ`). -/
noncomputable def Op2.run (i : ℕ) : Op2 → Val → Val → Except PyErr Val
  | .add, .rv x, .rv y => .ok (.rv (mkTwo norm .add i x y))
  | .add, .rv x, .num d => (mkShift norm i x d 1).map .rv
  | .add, .num d, .rv x => (mkShift norm i x d 1).map .rv
  | .sub, .rv x, .rv y => .ok (.rv (mkTwo norm .sub i x y))
  | .sub, .rv x, .num d => (mkShift norm i x (-d) 1).map .rv
  | .sub, .num d, .rv x => (mkShift norm i x d (-1)).map .rv
  | .mul, .rv x, .rv y => .ok (.rv (mkTwo norm .mul i x y))
  | .mul, .rv x, .num d => if d = 0 then .ok (.num 0) else (mkShift norm i x 0 d).map .rv
  | .mul, .num d, .rv x => if d = 0 then .ok (.num 0) else (mkShift norm i x 0 d).map .rv
  | .div, .rv x, .rv y => .ok (.rv (mkTwo norm .div i x y))
  | .div, .rv x, .num d => if d = 0 then .error .zeroDivision else (mkShift norm i x 0 (1.0 / d)).map .rv
  | .div, .num d, .rv x =>
    if d = 0 then .ok (.num 0) else (mkShift norm (i + 1) (mkInv norm i x) 0 d).map .rv
  | .pow, .rv x, .rv y => do
    let l ← mkLog norm i x
    .ok (.rv (mkExp norm (i + 2) (mkTwo norm .mul (i + 1) l y)))
  | .pow, .rv x, .num d =>
    if d = 0 then .ok (.num 1)
    else if d = 1 then .ok (.rv x)
    else if d = -1 then .ok (.rv (mkInv norm i x))
    else if d = 2 then .ok (.rv (mkSquare norm i x))
    else do
      let l ← mkLog norm i x
      let s ← mkShift norm (i + 1) l 0 d
      .ok (.rv (mkExp norm (i + 2) s))
  | .pow, .num x, .rv d =>
    if x = 0 then .ok (.num 0)
    else if x = 1 then .ok (.num 1)
    else if x < 0 then .error .value
    else do
      let s ← mkShift norm i d 0 (Real.log x)
      .ok (.rv (mkExp norm (i + 1) s))
  | .min, .rv x, .rv y => .ok (.rv (mkTwo norm .min i x y))
  | .max, .rv x, .rv y => .ok (.rv (mkTwo norm .max i x y))
  | .min, .num a, .num b => .ok (.num (if b < a then b else a))
  | .max, .num a, .num b => .ok (.num (if b > a then b else a))
  | .min, _, _ => .error .typ
  | .max, _, _ => .error .typ
  | .add, .num a, .num b => .ok (.num (a + b))
  | .sub, .num a, .num b => .ok (.num (a - b))
  | .mul, .num a, .num b => .ok (.num (a * b))
  | .div, .num a, .num b => if b = 0 then .error .zeroDivision else .ok (.num (a / b))
  | .pow, .num _, .num _ => .error .typ

/-- the functions of one argument -/
inductive Op1
  | neg | abs | exp | log | sqrt | sign | atan | tanh | sin | cos | tan | sigmoid

/-- the functions of one variable: `-X` and `abs(X)` (rv.py:182-187), `exp`, `log`, `sign`, `atan`, `tanh`, `sigmoid`, `sqrt`,
`sin`, `cos`, `tan` (distr.py:623-629, 646-660, 692-698, 730-736, 781-797, 942-949, 1019-1023, 1042-1046, 1060-1064).
`AbsRV` calls a method that does not exist (rv.py:413).  `sin`, `cos` and `tan` do not know random variables, and numpy
raises `TypeError` for them; `sigmoid` uses an undefined name for everything but distributions. -/
noncomputable def Op1.run (i : ℕ) : Op1 → Node → Except PyErr Node
  | .neg, x => mkShift norm i x 0 (-1)
  | .abs, _ => .error .attribute
  | .exp, x => .ok (mkExp norm i x)
  | .log, x => mkLog norm i x
  | .sqrt, x => .ok (.nested i (norm (.pow x.symname (1 / 2))) x)
  | .sign, x => .ok (.bare i (norm (.sign x.symname)) x)
  | .atan, x => .ok (.one i false (norm (.atan x.symname)) x)
  | .tanh, x => .ok (.one i false (norm (.tanh x.symname)) x)
  | .sin, _ => .error .typ
  | .cos, _ => .error .typ
  | .tan, _ => .error .typ
  | .sigmoid, _ => .error .name

/-- the exported functions of one number (the same lines): numpy's, except `sigmoid`; `none` stands for `nan` and
`-inf` -/
noncomputable def Op1.onNumber : Op1 → ℝ → Except PyErr (Option ℝ)
  | .neg, x => .ok (some (-x))
  | .abs, x => .ok (some |x|)
  | .exp, x => .ok (some (Real.exp x))
  | .log, x => .ok (open Classical in if 0 < x then some (Real.log x) else none)
  | .sqrt, x => .ok (open Classical in if 0 ≤ x then some (√x) else none)
  | .sign, x => .ok (some (Real.sign x))
  | .atan, x => .ok (some (Real.arctan x))
  | .tanh, x => .ok (some (Real.tanh x))
  | .sin, x => .ok (some (Real.sin x))
  | .cos, x => .ok (some (Real.cos x))
  | .tan, x => .ok (some (Real.tan x))
  | .sigmoid, _ => .error .name

end Pacal.Symbolic
