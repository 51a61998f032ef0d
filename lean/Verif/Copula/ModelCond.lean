import Verif.Copula.Model
import Verif.NDim.Model

/-!
Model of the conditional distribution functions of Archimedean copulas: `ArchimedeanSymbolicCopula.ccond`, `conditionCDF` and
`condfun` (`/repo/pacal/depvars/copulas.py`).

Simplifications, besides those of `Verif/Copula/Model.lean`.  The functions returned are called with numbers, as many as there are
variables (with a number `X` and an array as argument, `dF *= …` (copulas.py:555) raises an exception).  `dF` is computed and never
used; it is left out.
-/

namespace Pacal.Copula

/-- a marginal with its range -/
structure MargR extends Marg where
  lo : Ext ℝ
  hi : Ext ℝ

/-- the ranges of the variables, `getRanges` (nddistr.py:34-42, 55-56) -/
def dims (ms : List MargR) : List (NDim.Dim Unit ℝ) := ms.map fun m => ⟨(), m.lo, m.hi⟩

/-- `self.sym_C` (copulas.py:487-491): the formula of `fi_inv` at the sum of the formulas of `fi` -/
noncomputable def symC (g : Gen) (U : List ℝ) : ℝ := g.inv (U.foldl (fun si u => si + g.fi u) 0)

/-- `sympy.diff(DC, self.symVars[i])` -/
noncomputable def pderiv (F : List ℝ → ℝ) (i : ℕ) (U : List ℝ) : ℝ := deriv (fun t => F (U.set i t)) (U.getD i 0)

/-- the loop of `ccond` (copulas.py:508-513) with `d` variables -/
noncomputable def ccondFun (g : Gen) (d : ℕ) (var : List ℕ) : List ℝ → ℝ :=
  (List.range d).foldl (fun DC i => if i ∈ var then pderiv DC i else DC) (symC g)

/-- `ccond(var)` (copulas.py:503-515), called with numbers: the mask of `NDFun.__call__` (nddistr.py:78-87) compares them with the
ranges of the marginals -/
noncomputable def ccond (g : Gen) (ms : List MargR) (var : List ℕ) (U : List ℝ) : ℝ :=
  if NDim.scalarMask (dims ms) U then ccondFun g ms.length var U else 0

/-- `conditionCDF(var, *X)` (copulas.py:538-558), called with the numbers `Y`.  With one variable left, the function is put into a
piecewise function (nddistr.py:67-70), whose range must not be empty (segments.py:1013). -/
noncomputable def conditionCDF (g : Gen) (ms : List MargR) (var : List ℕ) (X Y : List ℝ) : Except CErr ℝ :=
  open Classical in
  let left := eliminate ms var
  if left.length = 1 ∧ ∃ m ∈ left, ¬m.lo < m.hi then .error .assertion
  else if NDim.scalarMask (dims left) Y then do
    let p ← together var ms.length 0 X Y
    .ok (ccond g ms var (margCdf (ms.map MargR.toMarg) p))
  else .ok 0

/-- `condfun(var)` (copulas.py:559-576), called with the numbers `X`, one for each variable -/
noncomputable def condfun (g : Gen) (ms : List MargR) (var : List ℕ) (X : List ℝ) : ℝ :=
  if NDim.scalarMask (dims ms) X then ccond g ms var (margCdf (ms.map MargR.toMarg) X) else 0

/-- the loop of `rand2d_invcdf` (copulas.py:589-598) for the draws `u` of `marginals[0].rand_invcdf` and `t` of the uniform
distribution.  `inverse` is the method of the piecewise function in `conditionCDF([0], u)` (segments.py:1835-1842). -/
noncomputable def rand2d (g : Gen) (ms : List MargR) (inverse : (ℝ → Except CErr ℝ) → ℝ → ℝ) (u t : List ℝ) : List (ℝ × ℝ) :=
  (u.zip t).map fun p => (p.1, inverse (fun y => conditionCDF g ms [0] [p.1] [y]) p.2)

end Pacal.Copula
