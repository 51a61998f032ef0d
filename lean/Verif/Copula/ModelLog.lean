import Verif.Copula.Model
import Verif.Base.Err

/-!
Model of the logarithms `logexp_p1`, `logexp_m1`, `log_1m_exp` and of the generator of `FrankCopula2d`
(`/repo/pacal/depvars/copulas.py`).

Arithmetic is exact; `log1p(y) = log(1 + y)`, `expm1(y) = exp(y) - 1`.  `log(0)`, which is `-inf` in numpy, is not modelled: the
theorems exclude it.
-/

namespace Pacal.Copula

/-- an argument: a number or an array -/
inductive Arg where
  | scalar (x : ℝ)
  | array (xs : List ℝ)

/-- one element of `logexp_p1(x, a)` for an array (copulas.py:720-728) -/
noncomputable def p1 (x a : ℝ) : ℝ :=
  let x := x + Real.log |a|
  let yy := Real.log (1 + Real.exp x)
  let yy := if Real.exp x > 1e16 then x else yy
  if Real.exp x < 1e-16 then Real.exp x else yy

/-- one element of `logexp_m1(x, a)`, or its value for a number (copulas.py:729-743) -/
noncomputable def m1 (x a : ℝ) : ℝ :=
  let x := x + Real.log |a|
  let yy := -Real.log |Real.exp (-x) - 1|
  let yy := if Real.exp (-x) > 1e16 then x else yy
  if Real.exp (-x) < 1e-16 then Real.exp (-x) else yy

/-- one element of `log_1m_exp(x, a)` for an array (copulas.py:744-752) -/
noncomputable def l1m (x a : ℝ) : ℝ :=
  let x := x + Real.log |a|
  let yy := Real.log |Real.exp x - 1|
  let yy := if Real.exp x > 1e16 then x else yy
  if Real.exp x < 1e-16 then -Real.exp x else yy

/-- `logexp_p1(x, a)`: for a number the item assignment `yy[ind] = x[ind]` to a numpy number is a `TypeError` -/
noncomputable def logexpP1 (x : Arg) (a : ℝ) : Except PyErr Arg :=
  match x with
  | .scalar _ => .error .typ
  | .array xs => .ok (.array (xs.map fun x => p1 x a))

/-- `logexp_m1(x, a)` -/
noncomputable def logexpM1 (x : Arg) (a : ℝ) : Arg :=
  match x with
  | .scalar x => .scalar (m1 x a)
  | .array xs => .array (xs.map fun x => m1 x a)

/-- `log_1m_exp(x, a)`: for a number the item assignment `yy[ind] = x[ind]` to a numpy number is a `TypeError` -/
noncomputable def log1mExp (x : Arg) (a : ℝ) : Except PyErr Arg :=
  match x with
  | .scalar _ => .error .typ
  | .array xs => .ok (.array (xs.map fun x => l1m x a))

/-- elementwise application -/
def Arg.map (f : ℝ → ℝ) : Arg → Arg
  | .scalar x => .scalar (f x)
  | .array xs => .array (xs.map f)

/-- `FrankCopula2d.fi(t)` (copulas.py:694-695) -/
noncomputable def frank2dFi (theta : ℝ) (t : Arg) : Arg :=
  (logexpM1 (t.map fun t => t * theta) 1).map fun y => y - m1 theta 1

/-- `FrankCopula2d.fi_inv(s)` (copulas.py:696-702) -/
noncomputable def frank2dInv (theta : ℝ) (s : Arg) : Except PyErr Arg :=
  if Real.exp (-theta) - 1 > 0 then
    (logexpP1 (s.map fun s => -s) (Real.exp (-theta) - 1)).map fun r => r.map fun y => -1 / theta * y
  else if Real.exp (-theta) - 1 < 0 then
    (log1mExp (s.map fun s => -s) (Real.exp (-theta) - 1)).map fun r => r.map fun y => -1 / theta * y
  else (logexpP1 (s.map fun s => -s) 0).map fun r => r.map fun y => -1 / theta * y

end Pacal.Copula
