import Verif.Segments.Model
import Verif.Base.Err
import Mathlib.Analysis.SpecialFunctions.Log.Basic

/-!
Model of `LoglikelihoodEstimator` (`/repo/pacal/stats/distr_est.py`).

Numbers are real.  `inspect.getargspec` is its documented result: the names of the positional parameters and the defaults of the
last ones.  `scipy.optimize.fmin` and the distribution class are parameters.  A keyword dictionary is the list of its entries
in the order of insertion.  The debug output is left out; the argument `parconstr` is stored and never used.
-/

namespace Pacal.Estim

/-- `inspect.getargspec(distr.__dict__["__init__"])`: `args`, and `defaults`, which is `None` if no parameter has one -/
structure Sig where
  args : List String
  defaults : Option (List ℝ)

/-- `d[k] = v` for a dictionary -/
def setItem (d : List (String × ℝ)) (k : String) (v : ℝ) : List (String × ℝ) :=
  if d.any (fun p => p.1 = k) then d.map fun p => if p.1 = k then (k, v) else p else d ++ [(k, v)]

/-- `for i in range(len(params)): d[params[i]] = vals[i]` (distr_est.py:26-27, 32-33) -/
def bindAll : List String → List ℝ → List (String × ℝ) → Except PyErr (List (String × ℝ))
  | [], _, d => .ok d
  | _ :: _, [], _ => .error .index
  | k :: ks, v :: vs, d => bindAll ks vs (setItem d k v)

/-- `make_kwargs(params, vals)` (distr_est.py:29-34) -/
def makeKwargs (params : List String) (vals : List ℝ) : Except PyErr (List (String × ℝ)) := bindAll params vals []

/-- the attributes of an estimator -/
structure Est where
  params : List String
  defvals : List ℝ
  parkvargs : List (String × ℝ)

/-- `__init__` (distr_est.py:9-28).  `own` is the signature of the class's own `__init__` (`none`: it is inherited, a `KeyError`),
`given` are the arguments `params` and `defvals` (`none`: `params` is `None`). -/
def init (own : Option Sig) (given : Option (List String × Option (List ℝ))) : Except PyErr Est :=
  match given with
  | none =>
    match own with
    | none => .error .key
    | some s =>
      if "self" ∈ s.args then
        let params := s.args.erase "self"
        match s.defaults with
        | none => .error .typ  -- `None[0:nargs]`
        | some ds =>
          let defvals := ds.take params.length
          (bindAll params defvals []).map fun d => ⟨params, defvals, d⟩
      else .error .value
  | some (params, some defvals) => (bindAll params defvals []).map fun d => ⟨params, defvals, d⟩
  | some ([], none) => .ok ⟨[], [], []⟩
  | some (_ :: _, none) => .error .typ  -- `None[0]`

/-- `y = zeros_like(x); y[ind] = …` (segments.py:1076): values are stored with the type of the data -/
inductive DType where
  | float | int

/-- storing a number in an array of this type; for integers it is truncated -/
noncomputable def DType.store : DType → ℝ → ℝ
  | .float, y => y
  | .int, y => if 0 ≤ y then (⌊y⌋ : ℝ) else (⌈y⌉ : ℝ)

/-- `log(pdf(xi) + 1e-300)` summed up and negated (distr_est.py:38); `eps` is `1e-300` -/
noncomputable def negLog (eps : ℝ) (dt : DType) (xi : List ℝ) (pdf : PF ℝ) : ℝ :=
  -((xi.map fun x => Real.log (dt.store (pdf.evalVec x) + eps)).sum)

/-- `logli(parvals)` (distr_est.py:35-40); `D` constructs the distribution from keyword arguments and returns its piecewise
density -/
noncomputable def logli (eps : ℝ) (D : List (String × ℝ) → Except PyErr (PF ℝ)) (dt : DType) (xi : List ℝ) (e : Est)
    (vals : List ℝ) : Except PyErr ℝ := do
  let kw ← makeKwargs e.params vals
  let pdf ← D kw
  .ok (negLog eps dt xi pdf)

/-- `find_params()` (distr_est.py:41-47); `fmin` is `scipy.optimize.fmin` -/
noncomputable def findParams (eps : ℝ) (fmin : (List ℝ → Except PyErr ℝ) → List ℝ → Except PyErr (List ℝ))
    (D : List (String × ℝ) → Except PyErr (PF ℝ)) (dt : DType) (xi : List ℝ) (e : Est) : Except PyErr (List (String × ℝ)) := do
  let paropt ← fmin (logli eps D dt xi e) e.defvals
  makeKwargs e.params paropt

end Pacal.Estim
