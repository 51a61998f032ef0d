import Verif.Segments.Model
import Verif.Base.Err

/-! The guard of logarithms, powers and square roots (C56). -/

namespace Pacal

/-- What decides about `is_nonneg()`: most distributions ask their density (distr.py:214-216); `ExpDistr`, `SinDistr` and
`CosDistr` do not (distr.py:621-622, 1017-1018, 1040-1041).  Random variables without a distribution (rv.py:16) have no such
method, except `ExpRV` (rv.py:365-366). -/
inductive Var (K : Type*)
  | distr (l : PF K)
  | exp (l : PF K)
  | sin (l : PF K)
  | cos (l : PF K)
  | rv
  | expRV

variable {K : Type*} [Field K] [LinearOrder K]

/-- `d.is_nonneg()` (distr.py:214-216, 621-622, 1017-1018, 1040-1041; rv.py:365-366) -/
def Var.isNonneg : Var K → Except PyErr Bool
  | .distr l => .ok (PF.isNonneg l)
  | .exp _ => .ok true
  | .sin _ => .ok true
  | .cos _ => .ok true
  | .rv => .error .attribute
  | .expRV => .ok true

/-- whether `log(d)` is accepted (distr.py:634-635, rv.py:370-371): only the test, not the construction -/
def Var.log (d : Var K) : Except PyErr Unit := do
  if ¬ (← d.isNonneg) then throw .value

/-- whether `d ** x` with a number `x` is accepted (distr.py:499-509, rv.py:268-278): only the test, not the construction -/
def Var.pow (d : Var K) (x : K) : Except PyErr Unit :=
  if x = 0 then .ok ()
  else if x = 1 then .ok ()
  else if x = -1 then .ok ()
  else if x = 2 then .ok ()
  else d.log

/-- whether `d ** Y` with a random variable `Y` is accepted (distr.py:497-498, rv.py:266-267): only the test -/
def Var.powVar (d : Var K) : Except PyErr Unit := d.log

/-- whether `sqrt(d)` is accepted (distr.py:942-950): distributions are asked and then raised to the power 1/2; for other random
variables nothing is tested -/
def Var.sqrt (d : Var K) : Except PyErr Unit :=
  match d with
  | .rv => .ok ()
  | .expRV => .ok ()
  | d => do
    if ¬ (← d.isNonneg) then throw .value
    d.pow (1 / 2)

end Pacal
