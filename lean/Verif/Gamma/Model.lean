import Mathlib.Analysis.SpecialFunctions.Log.Basic
import Mathlib.Analysis.SpecialFunctions.Trigonometric.Basic

/-!
Model of the log-gamma routine (`/repo/pacal/gamma.py`), which `pacal/utils.py:525-528` uses when the `math` module has none.

Simplifications.  Finite floating point numbers are exact reals; `math.log`, `math.sin`, `math.pi` are exact.  The recursive
call and the loops have fuel; `none` means that it is used up.  The sign, which is computed and not returned, is left out.
-/

namespace Pacal.Gamma

/-- floating point numbers: the finite ones and the special values -/
inductive Num
  | nan | ninf | pinf
  | fin (x : ℝ)

/-- `polevl(x, coef, N)` (gamma.py:5-12): the loop over `i` from 1 to `N`; a missing coefficient, which raises `IndexError`,
gives `none` -/
noncomputable def polevl (x : ℝ) (coef : List ℝ) (N : ℕ) : Option ℝ :=
  (List.range N).foldl (fun ans i => ans.bind fun a => coef[i + 1]?.map fun c => a * x + c) coef[0]?

/-- the numerical parts: the approximation for `2 ≤ u < 3` as a function of `u - 2` (gamma.py:93), the one for `x ≥ 13`
(gamma.py:97-107) and the constant `LOGPI` (gamma.py:15) -/
structure Approx where
  mid : ℝ → ℝ
  big : ℝ → ℝ
  logpi : ℝ

/-- `MAXLGM` (gamma.py:17) -/
noncomputable def maxlgm : ℝ := 2.556348e305

/-- `while u >= 3.0` (gamma.py:74-77) -/
noncomputable def down (x : ℝ) : ℕ → ℝ → ℝ → ℝ → Option (ℝ × ℝ × ℝ)
  | 0, _, _, _ => none
  | n + 1, z, p, u =>
    if 3 ≤ u then
      let p := p - 1
      let u := x + p
      let z := z * u
      down x n z p u
    else some (z, p, u)

/-- results of the second loop -/
inductive Up
  | fuel | pole
  | done (z p u : ℝ)

/-- `while u < 2.0` (gamma.py:78-83) -/
noncomputable def up (x : ℝ) : ℕ → ℝ → ℝ → ℝ → Up
  | 0, _, _, _ => .fuel
  | n + 1, z, p, u =>
    if u < 2 then
      if u = 0 then .pole
      else
        let z := z / u
        let p := p + 1
        let u := x + p
        up x n z p u
    else .done z p u

/-- the part for `-34 ≤ x < 13` (gamma.py:71-94) -/
noncomputable def small (A : Approx) (fuel : ℕ) (x : ℝ) : Option Num :=
  match down x fuel 1 0 x with
  | none => none
  | some (z, p, u) =>
    match up x fuel z p u with
    | .fuel => none
    | .pole => some .pinf
    | .done z p u =>
      let z := if z < 0 then -z else z
      if u = 2 then some (.fin (Real.log z))
      else
        let p := p - 2
        let x := x + p
        some (.fin (Real.log z + A.mid x))

/-- the reflection for `x < -34` (gamma.py:51-69), given `w = lgamma(q)` -/
noncomputable def reflect (A : Approx) (q : ℝ) (w : Num) : Num :=
  let p : ℝ := ⌊q⌋
  if p = q then .pinf
  else
    let z := q - p
    let z := if 1 / 2 < z then p + 1 - q else z
    let z := q * Real.sin (Real.pi * z)
    if z = 0 then .pinf
    else match w with
      | .fin w => .fin (A.logpi - Real.log z - w)
      | .pinf => .ninf
      | .ninf => .pinf
      | .nan => .nan

/-- `lgamma(x)` (gamma.py:41-107) for a finite `x` -/
noncomputable def lgammaFin (A : Approx) (fuel : ℕ) : ℕ → ℝ → Option Num
  | 0, _ => none
  | n + 1, x =>
    if x < -34 then
      let q := -x
      (lgammaFin A fuel n q).map (reflect A q)
    else if x < 13 then small A fuel x
    else if maxlgm < x then some .pinf
    else some (.fin (A.big x))

/-- `lgamma(x)` (gamma.py:41-107) -/
noncomputable def lgamma (A : Approx) (fuel : ℕ) : Num → Option Num
  | .nan => some .nan
  | .pinf => some .pinf
  | .ninf => some .pinf
  | .fin x => lgammaFin A fuel fuel x

/-- the coefficients `A` (gamma.py:19-23) -/
noncomputable def coefA : List ℝ :=
  [8.11614167470508450300E-4, -5.95061904284301438324E-4, 7.93650340457716943945E-4, -2.77777777730099687205E-3,
    8.33333333333331927722E-2]

/-- the coefficients `B` (gamma.py:24-29) -/
noncomputable def coefB : List ℝ :=
  [-1.37825152569120859100E3, -3.88016315134637840924E4, -3.31612992738871184744E5, -1.16237097492762307383E6,
    -1.72173700820839662146E6, -8.53555664245765465627E5]

/-- the coefficients `C` (gamma.py:30-36) -/
noncomputable def coefC : List ℝ :=
  [1.00000000000000000000E0, -3.51815701436523470549E2, -1.70642106651881159223E4, -2.20528590553854454839E5,
    -1.13933444367982507207E6, -2.53252307177582951285E6, -2.01889141433532773231E6]

/-- `LOGPI` (gamma.py:15) -/
noncomputable def logPi : ℝ := 1.14472988584940017414

/-- `LS2PI` (gamma.py:16) -/
noncomputable def ls2pi : ℝ := 0.91893853320467274178

/-- `x * polevl(x, B, 5) / polevl(x, C, 6)` (gamma.py:93); the lists are long enough -/
noncomputable def codeMid (x : ℝ) : ℝ := x * (polevl x coefB 5).getD 0 / (polevl x coefC 6).getD 0

/-- gamma.py:97-107 -/
noncomputable def codeBig (x : ℝ) : ℝ :=
  let q := (x - 0.5) * Real.log x - x + ls2pi
  if 1.0e8 < x then q
  else
    let p := 1 / (x * x)
    if 1000 ≤ x then q + ((7.9365079365079365079365e-4 * p - 2.7777777777777777777778e-3) * p + 0.0833333333333333333333) / x
    else q + (polevl p coefA 4).getD 0 / x

/-- the numerical parts of the code -/
noncomputable def code : Approx := ⟨codeMid, codeBig, logPi⟩

end Pacal.Gamma
