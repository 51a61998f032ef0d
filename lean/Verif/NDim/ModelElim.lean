import Verif.NDim.Model

/-!
Model of `NDFun.eliminate` (`/repo/pacal/depvars/nddistr.py`), which integrates variables out of a joint density numerically.

Simplifications.  Quadrature and interpolation (`NDInterpolatedDistr`) are exact: `I d g` is the integral of `g` over the range of the
dimension `d`.  The remaining dimensions keep their ranges (for a product the code takes the ranges of the variables again, which may be
larger; the integrand vanishes there).
-/

namespace Pacal.NDim

variable {V K : Type} [LinearOrder K] [Field K]

/-- `NDInterpolatedDistr(self.d - 1, InterpRunner(self, arg, c_var, v1).interpxx, …)` (nddistr.py:136-137, 179; integrals over one
variable: nddistr.py:188-240): the coordinate number `i` is integrated out.  `l` are the dimensions before it, `r` those after it. -/
def elimDim (I : Dim V K → (K → K) → K) (f : Fac V K) (i : ℕ) (d : Dim V K) : Fac V K :=
  { kind := .gen, dims := f.dims.eraseIdx i, fn := fun X => I d fun x => f.call (X.take i ++ x :: X.drop i), abs := false }

/-- the loop of `NDFun.eliminate` (nddistr.py:134-184) on dimension numbers, which are taken from the end of the list `var` (line 136);
the argument is the list in reverse order.  The numbers are *not* changed when a dimension has been removed (line 184), and are checked
in every round (lines 104, 133). -/
def elimRev (I : Dim V K → (K → K) → K) : Fac V K → List ℕ → Except NErr (Fac V K)
  | f, [] => .ok f
  | f, v1 :: rest =>
    if ¬ (∀ i ∈ v1 :: rest, i < f.dims.length) then .error .badIndex
    else
      match f.dims[v1]? with
      | none => .error .badIndex
      | some d =>
        if f.dims.length = 1 then .ok (Fac.ofConst (I d fun x => f.call [x]))
        else elimRev I (elimDim I f v1 d) rest

/-- `NDFun.eliminate(var, a, b)` (nddistr.py:127-184) for dimension numbers; the integration limits `a`, `b` are never used -/
def eliminateIdx (I : Dim V K → (K → K) → K) (f : Fac V K) (var : List ℕ) (_a _b : Option K) : Except NErr (Fac V K) :=
  elimRev I f var.reverse

variable [DecidableEq V]

/-- `NDFun.eliminate(var)` (nddistr.py:127-184) for variables, which are replaced by their numbers in the given order (nddistr.py:133,
106-113) -/
def eliminateVars (I : Dim V K → (K → K) → K) (f : Fac V K) (var : List V) : Except NErr (Fac V K) := do
  let pos ← prepareVar f.vars var
  eliminateIdx I f pos none none

end Pacal.NDim
