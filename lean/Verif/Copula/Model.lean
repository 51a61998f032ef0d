import Mathlib.Analysis.SpecialFunctions.Pow.Real
import Mathlib.Analysis.Calculus.IteratedDeriv.Defs

/-!
Model of the copulas (`/repo/pacal/depvars/copulas.py`).

Simplifications.  Numbers are exact reals.  The arguments of numpy's elementwise functions are arrays with at least two
elements, and the model follows one element of them; the value for scalars and arrays with one element is modelled apart
where it differs (`mCcdfScalar`).  Of the floating point infinities only the value `inf` of the generators at 0 is
kept.  `sympy.diff` is differentiation.  Distribution functions and densities of the marginals are parameters.  Calls without
arguments, which raise `IndexError`, are not modelled.
-/

namespace Pacal.Copula

/-- exceptions: a failed assertion, `IndexError` -/
inductive CErr
  | assertion | index
  deriving DecidableEq

/-- `PiCopula.ccdf` (copulas.py:298-302) -/
noncomputable def piCcdf (X : List ℝ) : ℝ := X.foldl (fun pi xi => pi * xi) 1

/-- `PiCopula.cpdf` (copulas.py:296-297) -/
noncomputable def piCpdf (_X : List ℝ) : ℝ := 1

/-- `MCopula.ccdf` (copulas.py:309-318) for arrays with at least two elements -/
noncomputable def mCcdf (X : List ℝ) : ℝ := X.foldl (fun mi xi => if xi < mi then xi else mi) (0 + 1)

/-- `MCopula.ccdf` (copulas.py:309-318) for scalars and arrays with one element: `mi = xia` whatever `ind` is -/
noncomputable def mCcdfScalar (X : List ℝ) : ℝ := X.foldl (fun _ xi => xi) (0 + 1)

/-- `MCopula.cpdf` (copulas.py:307-308) -/
noncomputable def mCpdf (_X : List ℝ) : ℝ := 0

/-- `WCopula.ccdf` (copulas.py:384-395); the same for scalars -/
noncomputable def wCcdf (X : List ℝ) : ℝ :=
  let si := X.foldl (fun si xi => si + xi) 0 - 1
  if si < 0 then 0 else si

/-- `WCopula.cpdf` (copulas.py:382-383) -/
noncomputable def wCpdf (_X : List ℝ) : ℝ := 0

/-- a generator: the formulas of `fi` and `fi_inv`, and their values in numpy, where `fi(0)` can be `inf` -/
structure Gen where
  fi : ℝ → ℝ
  inv : ℝ → ℝ
  npFi : ℝ → WithTop ℝ
  npInv : WithTop ℝ → ℝ

/-- `si = zeros_like(X[0])`, `si += self.fi(xi)` for all `xi` (copulas.py:453-455, 620-622) -/
noncomputable def Gen.sum (g : Gen) (X : List ℝ) : WithTop ℝ := X.foldl (fun si xi => si + g.npFi xi) 0

/-- `ArchimedeanCopula.ccdf` (copulas.py:451-460) with `d` marginals -/
noncomputable def archCcdf (g : Gen) (d : ℕ) (X : List ℝ) : Except CErr ℝ :=
  if X.length = d then
    let si := g.sum X
    let si := if si < 0 then 0 else si
    .ok (g.npInv si)
  else .error .assertion

/-- `ArchimedeanCopula.cpdf` (copulas.py:441-450) with `d` marginals and the derivatives of `ArchimedeanSymbolicCopula`
(copulas.py:474-480), for arguments in the open unit interval -/
noncomputable def archCpdf (g : Gen) (d : ℕ) (X : List ℝ) : Except CErr ℝ :=
  if X.length = d then
    let si := X.foldl (fun si xi => si + g.fi xi) 0
    let si := iteratedDeriv d g.inv si
    let pi := X.foldl (fun pi xi => pi * deriv g.fi xi) 1
    .ok (si * pi)
  else .error .assertion

/-- the generator of `ClaytonCopula` (copulas.py:646-650): `fi_`, `fi_inv_`.  In numpy `0 ** -theta` is `inf` for positive
`theta` and 0 for negative `theta` -/
noncomputable def clayton (theta : ℝ) : Gen where
  fi t := 1 / theta * (t ^ (-theta) - 1)
  inv s := (1 + s * theta) ^ (-1 / theta)
  npFi t := if t = 0 ∧ 0 < theta then ⊤ else ((1 / theta * (t ^ (-theta) - 1) : ℝ) : WithTop ℝ)
  npInv s := match s with
    | ⊤ => 0
    | (s : ℝ) => (1 + s * theta) ^ (-1 / theta)

/-- the generator of `GumbelCopula` (copulas.py:631-634) and `GumbelCopula2d` (copulas.py:607-610).  In numpy `log(0)` is
`-inf` -/
noncomputable def gumbel (theta : ℝ) : Gen where
  fi t := (-Real.log t) ^ theta
  inv s := Real.exp (-s ^ (1 / theta))
  npFi t := if t = 0 then ⊤ else (((-Real.log t) ^ theta : ℝ) : WithTop ℝ)
  npInv s := match s with
    | ⊤ => 0
    | (s : ℝ) => Real.exp (-s ^ (1 / theta))

/-- the generator of `FrankCopula` (copulas.py:677-682) -/
noncomputable def frank (theta : ℝ) : Gen where
  fi t := -Real.log ((Real.exp (-t * theta) - 1) / (Real.exp (-theta) - 1))
  inv s := -Real.log (Real.exp (-s - theta) - Real.exp (-s) + 1) / theta
  npFi t := if t = 0 then ⊤
    else ((-Real.log ((Real.exp (-t * theta) - 1) / (Real.exp (-theta) - 1)) : ℝ) : WithTop ℝ)
  npInv s := match s with
    | ⊤ => -Real.log (0 - 0 + 1) / theta
    | (s : ℝ) => -Real.log (Real.exp (-s - theta) - Real.exp (-s) + 1) / theta

/-- the default generator of `ArchimedeanCopula` (copulas.py:411-413): `log` and `exp`, for positive arguments -/
noncomputable def archDefault : Gen where
  fi t := Real.log t
  inv s := Real.exp s
  npFi t := ((Real.log t : ℝ) : WithTop ℝ)
  npInv s := match s with
    | ⊤ => 0
    | (s : ℝ) => Real.exp s

/-- `GumbelCopula2d.ccdf` (copulas.py:619-624) -/
noncomputable def gumbel2dCcdf (theta : ℝ) (X : List ℝ) : ℝ := (gumbel theta).npInv ((gumbel theta).sum X)

/-- `GumbelCopula2d.cpdf` (copulas.py:611-618), for arguments in the open unit interval -/
noncomputable def gumbel2dCpdf (theta : ℝ) (X : List ℝ) : ℝ :=
  let fi := (gumbel theta).fi
  let si := X.foldl (fun si xi => si + fi xi) 0
  let si := (gumbel theta).inv si * (si ^ (1 / theta - 2) * (-1 + theta + si ^ (1 / theta))) / theta ^ 2
  X.foldl (fun si xi => si * (theta * fi xi ^ (1 - 1 / theta) / xi)) si

/-- `FrankCopula2d.ccdf` (copulas.py:712-717), with `eta` (copulas.py:690) -/
noncomputable def frank2dCcdf (theta : ℝ) (X : List ℝ) : ℝ :=
  let eta := -(Real.exp (-theta) - 1)
  let pi := X.foldl (fun pi xi => pi * -(Real.exp (-theta * xi) - 1)) 1
  let yi := -(1 / theta) * Real.log (1 + -pi / eta)
  yi

/-- `FrankCopula2d.cpdf` (copulas.py:703-711) -/
noncomputable def frank2dCpdf (theta : ℝ) (X : List ℝ) : ℝ :=
  let eta := -(Real.exp (-theta) - 1)
  let si := X.foldl (fun si xi => si + xi) 0
  let pi := X.foldl (fun pi xi => pi * -(Real.exp (-theta * xi) - 1)) 1
  theta * eta * Real.exp (-theta * si) / (eta - pi) ^ X.length

/-- distribution function and density of a marginal: `get_piecewise_cdf_interp()`, `get_piecewise_pdf()` -/
structure Marg where
  cdf : ℝ → ℝ
  pdf : ℝ → ℝ

/-- `[self.marginals[i].get_piecewise_cdf_interp()(X[i]) for i in range(len(X))]` (copulas.py:69, 77) -/
def margCdf (ms : List Marg) (X : List ℝ) : List ℝ := List.zipWith (fun m x => m.cdf x) ms X

/-- `Copula.pdf` (copulas.py:58-71), with marginals -/
noncomputable def jointPdf (ms : List Marg) (cpdf : List ℝ → ℝ) (X : List ℝ) : ℝ :=
  let mi := (List.zip ms X).foldl (fun mi p => mi * p.1.pdf p.2) 1
  cpdf (margCdf ms X) * mi

/-- `Copula.cdf` (copulas.py:72-78), with marginals -/
def jointCdf (ms : List Marg) (ccdf : List ℝ → ℝ) (X : List ℝ) : ℝ := ccdf (margCdf ms X)

/-- `Copula.dualcdf` (copulas.py:80-84) -/
noncomputable def dualCdf (ms : List Marg) (ccdf : List ℝ → ℝ) (X : List ℝ) : ℝ :=
  (List.zip ms X).foldl (fun si p => si + p.1.cdf p.2) 0 - ccdf X

/-- `Copula.beta` (copulas.py:249-252) -/
noncomputable def beta (ccdf : List ℝ → ℝ) : ℝ := 4 * ccdf [1 / 2, 1 / 2] - 1

/-- `ArchimedeanSymbolicCopula.eliminate` (copulas.py:493-501): the marginals left, given the numbers of the eliminated ones.
The generator stays the same. -/
def eliminate {α : Type} (ms : List α) (var : List ℕ) : List α :=
  (ms.zipIdx.filter fun p => decide (p.2 ∉ var)).map Prod.fst

/-- `Copula.pdf` (copulas.py:58-71) of an Archimedean copula with these marginals -/
noncomputable def archPdf (g : Gen) (ms : List Marg) (X : List ℝ) : Except CErr ℝ :=
  if ms.length < X.length then .error .index
  else do
    let c ← archCpdf g ms.length (margCdf ms X)
    .ok (c * (List.zip ms X).foldl (fun mi p => mi * p.1.pdf p.2) 1)

/-- the loop of `condition` that puts the arguments together (copulas.py:525-535): `X` for the variables in `var`, `Y` for
the others, from number `i` on; `IndexError` when one of the lists is too short -/
def together (var : List ℕ) : ℕ → ℕ → List ℝ → List ℝ → Except CErr (List ℝ)
  | 0, _, _, _ => .ok []
  | n + 1, i, X, Y =>
    if i ∈ var then
      match X with
      | [] => .error .index
      | x :: X => (together var n (i + 1) X Y).map (x :: ·)
    else
      match Y with
      | [] => .error .index
      | y :: Y => (together var n (i + 1) X Y).map (y :: ·)

/-- `ArchimedeanSymbolicCopula.condition` (copulas.py:517-537): the conditional density at `Y`; `var` are numbers of
variables.  Division by 0 is not modelled. -/
noncomputable def condition (g : Gen) (ms : List Marg) (var : List ℕ) (X Y : List ℝ) : Except CErr ℝ := do
  let cvar := (List.range ms.length).filter fun i => decide (i ∉ var)
  let P ← together var ms.length 0 X Y
  let num ← archPdf g ms P
  let den ← archPdf g (eliminate ms cvar) X
  .ok (num / den)

end Pacal.Copula
