import Mathlib.MeasureTheory.Integral.IntervalIntegral.Basic

/-!
Model of the measures of dependence of a joint distribution: `Copula.cov`, `corrcoef`, `tau`, `rho_s`, `ctau`
(`/repo/pacal/depvars/copulas.py`), `ArchimedeanCopula.tau_c` and `NDDistr.cov` (`/repo/pacal/depvars/nddistr.py`).

Simplifications.  Numbers are exact reals.  Variables are given by their numbers (RV instances, which `_prepare_single_var`
turns into numbers first, are not modelled).  The ranges of the marginals are finite.  `integrate_fejer2` and the
interpolation in between (integration.py:325-335) are exact: the value of `integrate_iter` is the iterated integral.  The
print statement of `cov` is left out.
-/

namespace Pacal.Depend

/-- exceptions: the `RuntimeError` of `_prepare_single_var`, `IndexError`, `AttributeError` -/
inductive DErr
  | runtime | index | attribute
  deriving DecidableEq

/-- what is used of a marginal: `mean()`, `std()`, the ends of `get_piecewise_pdf().range()` and `pdf` -/
structure Var where
  mean : ℝ
  std : ℝ
  lo : ℝ
  hi : ℝ
  pdf : ℝ → ℝ

/-- what is used of the object returned by `eliminate`, besides its marginals: the functions as `integrate_iter` calls them,
with an array of 63 or more numbers and one number, or the exception.  The distributions of `NDInterpolatedDistr`, which
`NDFun.eliminate` returns, have only `pdf`; for them the others are `.error .attribute`. -/
structure Pair where
  pdf : ℝ → ℝ → ℝ
  cdf : Except DErr (ℝ → ℝ → ℝ)
  ccdf : Except DErr (ℝ → ℝ → ℝ)
  cpdf : Except DErr (ℝ → ℝ → ℝ)

/-- `MCopula.ccdf` (copulas.py:309-318) called with an array and a number: for the number, `xia` is an array without
dimensions, and `xia[ind]` with an array of truth values raises `IndexError` -/
def minCcdf : Except DErr (ℝ → ℝ → ℝ) := .error .index

/-- a copula, or another joint distribution: its marginals (for an `NDDistr`, its variables), and for `a < b` the joint
distribution of the variables `a` and `b` which is left after the elimination of all others (copulas.py:493-501,
nddistr.py:127-185) -/
structure Obj where
  ms : List Var
  pair : ℕ → ℕ → Pair

/-- `integrate_iter` (integration.py:325-335) -/
noncomputable def integrateIter (f : ℝ → ℝ → ℝ) (a1 b1 a2 b2 : ℝ) : ℝ := ∫ y in a2..b2, ∫ x in a1..b1, f x y

/-- `integrate_fejer2(f, a, b)` -/
noncomputable def integrate (f : ℝ → ℝ) (a b : ℝ) : ℝ := ∫ x in a..b, f x

/-- `prepare_var([i, j])` (nddistr.py:99-113): both numbers are checked; the result is the pair of the variables which
are not eliminated, in ascending order (`c_var` is the sorted list of the others) -/
def prepare (o : Obj) (i j : ℕ) : Except DErr (ℕ × ℕ) :=
  if ¬i < o.ms.length then .error .runtime
  else if ¬j < o.ms.length then .error .runtime
  else .ok (min i j, max i j)

/-- a list access -/
def item {α : Type} (l : List α) (k : ℕ) : Except DErr α :=
  match l[k]? with
  | some v => .ok v
  | none => .error .index

/-- `Copula.cov(i, j)` (copulas.py:195-209).  `dij.marginals[0]` is the marginal of the smaller of the two numbers. -/
noncomputable def cov (o : Obj) (i j : ℕ) : Except DErr ℝ := do
  let ab ← prepare o i j
  let f ← item o.ms ab.1
  let g ← item o.ms 1
  if i = j then .ok (integrate (fun x => (x - f.mean) ^ 2 * f.pdf x) f.lo f.hi)
  else .ok (integrateIter (fun x y => (x - f.mean) * (y - g.mean) * (o.pair ab.1 ab.2).pdf x y) f.lo f.hi g.lo g.hi)

/-- `Copula.corrcoef(i, j)` (copulas.py:216-221) -/
noncomputable def corrcoef (o : Obj) (i j : ℕ) : Except DErr ℝ := do
  let ab ← prepare o i j
  let f ← item o.ms ab.1
  let g ← item o.ms 1
  let c ← cov o i j
  .ok (c / f.std / g.std)

/-- `Copula.tau(i, j)` (copulas.py:228-242) -/
noncomputable def tau (o : Obj) (i j : ℕ) : Except DErr ℝ := do
  let ab ← prepare o i j
  let f ← item o.ms ab.1
  let g ← item o.ms 1
  if i = j then .ok 1
  else do
    let H ← (o.pair ab.1 ab.2).cdf
    let c := integrateIter (fun x y => H x y * (o.pair ab.1 ab.2).pdf x y) f.lo f.hi g.lo g.hi
    .ok (4 * c - 1)

/-- `Copula.rho_s(i, j)` (copulas.py:253-265) -/
noncomputable def rhoS (o : Obj) (i j : ℕ) : Except DErr ℝ := do
  let ab ← prepare o i j
  if i = j then .ok 1
  else do
    let C ← (o.pair ab.1 ab.2).ccdf
    let c := integrateIter (fun x y => C x y) 0 1 0 1
    .ok (12 * c - 3)

/-- `Copula.ctau(i, j)` (copulas.py:273-285) -/
noncomputable def ctau (o : Obj) (i j : ℕ) : Except DErr ℝ := do
  let ab ← prepare o i j
  if i = j then .ok 1
  else do
    let C ← (o.pair ab.1 ab.2).ccdf
    let k ← (o.pair ab.1 ab.2).cpdf
    let c := integrateIter (fun x y => C x y * k x y) 0 1 0 1
    .ok (4 * c - 1)

/-- the calls without arguments (copulas.py:210-215, 222-227, 243-248, 266-271, 286-291, nddistr.py:361-368): the matrix of
the values for all pairs, row by row -/
def table (d : ℕ) (f : ℕ → ℕ → Except DErr ℝ) : Except DErr (List (List ℝ)) :=
  (List.range d).mapM fun i => (List.range d).mapM fun j => f i j

/-- `Copula.tau()` (copulas.py:243-248): it is filled by `ctau` -/
noncomputable def tauAll (o : Obj) : Except DErr (List (List ℝ)) := table o.ms.length (ctau o)

/-- `NDDistr.cov(i, j)` (nddistr.py:347-360) -/
noncomputable def ndCov (o : Obj) (i j : ℕ) : Except DErr ℝ := do
  let ab ← prepare o i j
  let f ← item o.ms ab.1
  let g ← item o.ms 1
  if i = j then .ok 1
  else .ok (integrateIter (fun x y => (x - 0) * (y - 0) * (o.pair ab.1 ab.2).pdf x y) f.lo f.hi g.lo g.hi)

/-- `ArchimedeanCopula.tau_c` (copulas.py:438-439), from the generator and its derivative -/
noncomputable def tauC (fi fiDeriv : ℝ → ℝ) : ℝ := 1 + 4 * integrate (fun t => fi t / fiDeriv t) 0 1

end Pacal.Depend
