import Verif.Base.Err
import Mathlib.Algebra.Order.Field.Basic

/-!
Model of the root finders: `bisect` (`/repo/pacal/utils.py:448-468`), `findinv` (400-408), `findinv_minf`
(409-425), `findinv_pinf` (426-446).

Numbers are elements of an ordered field.  `scipy.optimize.brentq` is a parameter (any root finder);
`np.isfinite` is a parameter `fin` (in floating point, large numbers overflow to infinity), so that the
float behaviour "expand until overflow" stays expressible.  The while loops have a step budget; running
out of it is `.error .recursion`.
-/

namespace Pacal
namespace Roots
variable {K : Type*} [Field K] [LinearOrder K] [IsStrictOrderedRing K]

/-- the for loop of `bisect` (utils.py:456-467).  `last` is the variable `xm` (unbound before the first
iteration); the flag of the result tells whether the warning is printed. -/
def bisectLoop (f : K → K) (fa tol : K) : ℕ → K → K → Option K → Except PyErr (K × Bool)
  | 0, _, _, none => .error .unbound
  | 0, _, _, some xm => .ok (xm, true)
  | k + 1, xa, dm, _ =>
    let dm := dm / 2
    let xm := xa + dm
    let fm := f xm
    let xa := if 0 ≤ fm * fa then xm else xa
    if fm = 0 ∨ |dm| < tol then .ok (xm, false) else bisectLoop f fa tol k xa dm (some xm)

/-- `bisect` (utils.py:448-468); `RuntimeError` is `.op 1` -/
def bisect (f : K → K) (xa xb xtol rtol : K) (maxiter : ℕ) : Except PyErr (K × Bool) :=
  let tol := min xtol (rtol * (|xa| + |xb|))
  let fa := f xa
  let fb := f xb
  if fa * fb > 0 then .error (.op 1)
  else if fa = 0 then .ok (xa, false)
  else if fb = 0 then .ok (xb, false)
  else bisectLoop f fa tol maxiter xa (xb - xa) none

/-- a root finder: function, ends of the bracket -/
abbrev Finder (K : Type*) := (K → K) → K → K → Except PyErr K

/-- `findinv` (utils.py:400-408): `brentq` if scipy is there, otherwise `bisect` -/
def findinv (solver : Finder K) (fn : K → K) (a b c : K) : Except PyErr K := solver (fun x => fn x - c) a b

/-- the results of `findinv_minf` and `findinv_pinf`: `nan`, an infinite (overflowed) bracket end, or a
number -/
inductive Res (K : Type*)
  | nan
  | infinite (x : K)
  | root (x : K)

/-- the while loop of `findinv_minf` (utils.py:415-419), giving the final bracket -/
def minfLoop (fin : K → Bool) (fn : K → K) (c : K) : ℕ → K → K → Except PyErr (K × K)
  | fuel, a, b =>
    if fin a ∧ fn a > c then
      match fuel with
      | 0 => .error .recursion
      | fuel + 1 => minfLoop fin fn c fuel (a - (b - a) * (12 / 10)) a
    else .ok (a, b)

/-- `findinv_minf` (utils.py:409-425) -/
def findinvMinf (fin : K → Bool) (solver : Finder K) (fuel : ℕ) (fn : K → K) (b c : K) : Except PyErr (Res K) :=
  let a := b - max 1 (1 / 10 * |b|)
  if ¬ c ≤ fn b then .ok .nan
  else do
    let (a, b) ← minfLoop fin fn c fuel a b
    if fin a then do
      let x ← findinv solver fn a b c
      .ok (.root x)
    else .ok (.infinite a)

/-- the while loop of `findinv_pinf` (utils.py:436-440) -/
def pinfLoop (fin : K → Bool) (fn : K → K) (c : K) : ℕ → K → K → Except PyErr (K × K)
  | fuel, a, b =>
    if fin b ∧ fn b < c then
      match fuel with
      | 0 => .error .recursion
      | fuel + 1 => pinfLoop fin fn c fuel b (b + (b - a) * (12 / 10))
    else .ok (a, b)

/-- `findinv_pinf` (utils.py:426-446) -/
def findinvPinf (fin : K → Bool) (solver : Finder K) (fuel : ℕ) (fn : K → K) (a c : K) (increasing : Bool) :
    Except PyErr (Res K) :=
  let s : K := if increasing then 1 else -1
  let b := a + max 1 (1 / 10 * |a|)
  if ¬ s * (fn a - c) ≤ 0 then .ok .nan
  else do
    let (a, b) ← pinfLoop fin fn c fuel a b
    if fin b then do
      let x ← findinv solver fn a b c
      .ok (.root x)
    else .ok (.infinite b)

end Roots
end Pacal
