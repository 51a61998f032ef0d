import Verif.Segments.Model
import Mathlib.Data.List.Dedup
import Mathlib.Algebra.BigOperators.Group.List.Basic

/-!
Model of joint densities and of products of factors (`/repo/pacal/depvars/nddistr.py`): `NDFun.__call__`,
`NDProductDistr`, `NDDistrWithVarSubst`, `NDDistr.condition`.

Simplifications.  Random variables are elements of a type `V` (`id()`).  A factor is a list of dimensions (a variable with
the ends of its range) with a function of the list of coordinates.  Interpolation on sparse grids is replaced by the
interpolated function, and the elimination of variables from a single factor (`NDDistr.eliminate` with its quadrature) is
a parameter.  Exceptions are `NErr`.  Functions are applied elementwise to arrays, so that an array argument is a list of
points; `safe` (`nan_to_num`) is left out.
-/

namespace Pacal.NDim

/-- exceptions -/
inductive NErr
  | badIndex | assertion | notConstant | noFactors | ambiguous
  deriving DecidableEq

/-- classes of factors: `NDOneFactor` (nddistr.py:507), `NDConstFactor` (nddistr.py:491), and the others -/
inductive Kind (K : Type)
  | one
  | const (c : K)
  | gen

/-- a dimension: the variable and the ends of its range -/
structure Dim (V K : Type) where
  var : V
  a : Ext K
  b : Ext K

/-- a factor (`NDFun`, nddistr.py:46-71) -/
structure Fac (V K : Type) where
  kind : Kind K
  dims : List (Dim V K)
  fn : List K → K
  abs : Bool

variable {V K : Type}

namespace Fac

/-- `self.Vars` (nddistr.py:60) -/
def vars (f : Fac V K) : List V := f.dims.map Dim.var

/-- `NDConstFactor(c)` (nddistr.py:491-499) -/
def ofConst (c : K) : Fac V K := { kind := .const c, dims := [], fn := fun _ => c, abs := false }

/-- `NDOneFactor()` (nddistr.py:507-509) -/
def ofOne [One K] : Fac V K := { kind := .one, dims := [], fn := fun _ => 1, abs := false }

end Fac

variable [LinearOrder K]

/-- `X[i] >= self.a[i] and X[i] <= self.b[i]` (nddistr.py:81-83, 89-91) -/
def Dim.inside (d : Dim V K) (x : K) : Bool := decide (d.a ≤ Ext.fin x) && decide (Ext.fin x ≤ d.b)

/-- the mask for scalars (nddistr.py:81-83): the first coordinate *or* another one is inside -/
def scalarMask (dims : List (Dim V K)) (X : List K) : Bool :=
  match List.zipWith Dim.inside dims X with
  | [] => true
  | m :: ms => ms.foldl (fun mask i => mask || i) m

/-- the mask for arrays, at one point (nddistr.py:89-91) -/
def arrayMask (dims : List (Dim V K)) (X : List K) : Bool :=
  match List.zipWith Dim.inside dims X with
  | [] => true
  | m :: ms => ms.foldl (fun mask i => mask && i) m

variable [Field K]

namespace Fac

/-- the sign is dropped if `abs` is set (nddistr.py:96-97) -/
def post (f : Fac V K) (y : K) : K := if f.abs then |y| else y

/-- `f(*X)` for scalars (nddistr.py:78-87, 96-98) -/
def callScalar (f : Fac V K) (X : List K) : K :=
  f.post (if X = [] then f.fn X else if scalarMask f.dims X then f.fn X else 0)

/-- `f(*X)` for arrays (nddistr.py:78-79, 88-98): the result has the type of the first array, `cast` is the conversion to
it (the identity for arrays of floating point numbers, truncation for arrays of integers) -/
def callArray (cast : K → K) (f : Fac V K) (pts : List (List K)) : List K :=
  pts.map fun X => f.post (if X = [] then f.fn X else if arrayMask f.dims X then cast (f.fn X) else 0)

/-- one entry of `f(*X)` for arrays of floating point numbers -/
def call (f : Fac V K) (X : List K) : K :=
  f.post (if X = [] then f.fn X else if arrayMask f.dims X then f.fn X else 0)

end Fac

variable [DecidableEq V]

/-- `id_to_idx` (nddistr.py:61-62, 99-105): the position of a variable -/
def indexOf (vars : List V) (v : V) : Except NErr ℕ :=
  if v ∈ vars then .ok (vars.idxOf v) else .error .badIndex

/-- `prepare_var(vs)` (nddistr.py:106-113), positions of given variables -/
def prepareVar (vars : List V) (vs : List V) : Except NErr (List ℕ) := vs.mapM (indexOf vars)

/-- `[X[i] for i in var]` -/
def pick (X : List K) (idx : List ℕ) : Except NErr (List K) :=
  idx.mapM fun i => match X[i]? with
    | some x => .ok x
    | none => .error .badIndex

/-- `NDProductDistr.optimize` (nddistr.py:694-706) -/
def optimize (factors : List (Fac V K)) : List (Fac V K) :=
  let step : List (Fac V K) × K → Fac V K → List (Fac V K) × K := fun s f =>
    match f.kind with
    | .one => s
    | .const c => (s.1, s.2 * c)
    | .gen => (s.1 ++ [f], s.2)
  let r := factors.foldl step ([], 1)
  if r.2 ≠ 1 then r.1 ++ [Fac.ofConst r.2] else r.1

/-- `NDProductDistr` (nddistr.py:663-683) -/
structure Product (V K : Type) where
  dims : List (Dim V K)
  factors : List (Fac V K)

namespace Product

/-- `self.Vars` -/
def vars (P : Product V K) : List V := P.dims.map Dim.var

/-- the ends of the range of a variable: the intersection over the factors (nddistr.py:675-683) -/
def meet (factors : List (Fac V K)) (v : V) : Dim V K :=
  let step : Dim V K → Dim V K → Dim V K := fun d e => if e.var = v then ⟨v, max d.a e.a, min d.b e.b⟩ else d
  (factors.flatMap Fac.dims).foldl step ⟨v, Ext.ninf, Ext.pinf⟩

/-- `NDProductDistr.__init__` (nddistr.py:664-683); `sort` is the sort by the names of symbols.  One dimensional
distributions given as factors are not distinguished from their `Factor1DDistr` (nddistr.py:667-668) -/
def mk' (sort : List V → List V) (factors : List (Fac V K)) : Except NErr (Product V K) :=
  if factors = [] then .error .noFactors
  else
    let vars := sort (factors.flatMap Fac.vars).dedup
    .ok { dims := vars.map (meet (optimize factors)), factors := optimize factors }

/-- `NDProductDistr.pdf` (nddistr.py:687-693), with `callF` the call of a factor -/
def pdf (callF : Fac V K → List K → K) (P : Product V K) (X : List K) : Except NErr K :=
  P.factors.foldlM (fun y f => do
    let idx ← prepareVar P.vars f.vars
    let Xf ← pick X idx
    pure (y * callF f Xf)) 1

/-- `as_constant` (nddistr.py:707-714) -/
def asConstant (P : Product V K) : Except NErr K :=
  match optimize P.factors with
  | [] => .ok 1
  | [f] => match f.kind with
    | .one => .ok 1
    | .const c => .ok c
    | .gen => .error .notConstant
  | _ => .error .notConstant

/-- `factor_out` (nddistr.py:716-728): factors without and with one of the variables -/
def factorOut (factors : List (Fac V K)) (vs : List V) : List (Fac V K) × List (Fac V K) :=
  (factors.filter fun f => decide (∀ v ∈ vs, v ∉ f.vars), factors.filter fun f => decide (∃ v ∈ vs, v ∈ f.vars))

/-- a product used as a factor -/
def toFac (P : Product V K) : Fac V K :=
  { kind := .gen, dims := P.dims, fn := fun X => (P.pdf Fac.call X).toOption.getD 0, abs := false }

/-- the result of eliminating variables from a product: `NDOneFactor()` or a product -/
inductive Res (V K : Type)
  | one
  | prod (P : Product V K)

/-- `f.eliminate(vs)` for a factor of a product: constants return themselves (nddistr.py:500-501); the others
(`NDDistr.eliminate` and the classes that override it) are the parameter `marg` for variables the factor has -/
def facEliminate (marg : Fac V K → List V → Except NErr (Fac V K)) (f : Fac V K) (vs : List V) :
    Except NErr (Fac V K) :=
  match f.kind with
  | .one => .ok f
  | .const _ => .ok f
  | .gen => if ∃ v ∈ vs, v ∉ f.vars then .error .badIndex else if vs = [] then .ok f else marg f vs

/-- `argmin(Ns)`: the first position of the smallest number (nddistr.py:740-741) -/
def argmin : List ℕ → ℕ
  | [] => 0
  | [_] => 0
  | n :: m :: l => if n ≤ (m :: l).foldl min m then 0 else argmin (m :: l) + 1

/-- the factors that replace those with the eliminated variable (nddistr.py:745-751).
`_NDProductDistr(elim_factors).eliminate(v1)` is `marg` of the product as a factor -/
def elimFactors (sort : List V → List V) (marg : Fac V K → List V → Except NErr (Fac V K)) (elim : List (Fac V K))
    (v₁ : V) : Except NErr (List (Fac V K)) :=
  match elim with
  | [] => .ok []
  | [f] => do
    let g ← facEliminate marg f [v₁]
    .ok [g]
  | fs => do
    let Q ← mk' sort fs
    let g ← facEliminate marg Q.toFac [v₁]
    .ok [g]

/-- `NDProductDistr.eliminate` (nddistr.py:734-762), with a bound on the number of rounds; one round removes one variable -/
def eliminate (sort : List V → List V) (marg : Fac V K → List V → Except NErr (Fac V K)) :
    ℕ → Product V K → List V → Except NErr (Res V K)
  | 0, P, Var => if Var = [] then .ok (.prod P) else .error .badIndex
  | fuel + 1, P, Var =>
    if Var = [] then .ok (.prod P)
    else if ∃ v ∈ Var, v ∉ P.vars then .error .badIndex
    else
      let Ns := Var.map fun v => (P.factors.filter fun f => decide (v ∈ f.vars)).length
      let bestV := argmin Ns
      match Var[bestV]? with
      | none => .error .badIndex
      | some v₁ => do
        let ef ← elimFactors sort marg (factorOut P.factors [v₁]).2 v₁
        let Var := Var.eraseIdx bestV
        match optimize ((factorOut P.factors [v₁]).1 ++ ef) with
        | [] => .ok .one
        | [f] => do
          let g ← facEliminate marg f Var
          let R ← mk' sort [g]
          .ok (.prod R)
        | fs => do
          let R ← mk' sort fs
          eliminate sort marg fuel R Var

/-- `_cond_f` (nddistr.py:275-281): coordinates of a factor from the values of the condition and of the other variables -/
def condArgs (vars : List V) (v : V) (x : K) (free : List K) : List K :=
  match vars with
  | [] => []
  | w :: vars =>
    if w = v then x :: condArgs vars v x free
    else match free with
      | [] => []
      | y :: ys => y :: condArgs vars v x ys

/-- `cf.condition(cV, cX, normalize=False)` for a factor (nddistr.py:286-300, 502-503, called in nddistr.py:776): the
values arrive as *one* argument, a list, so that only a single value can be compared with the range of its variable -/
def facCondition (range : V → Ext K × Ext K) (f : Fac V K) (vs : List V) (xs : List K) : Except NErr (Fac V K) :=
  match f.kind with
  | .one => .ok f
  | .const _ => .ok f
  | .gen =>
    match vs, xs with
    | [v], [x] =>
      if v ∉ f.vars then .error .badIndex
      else if ¬ ((range v).1 ≤ Ext.fin x ∧ Ext.fin x ≤ (range v).2) then .error .assertion
      else if f.vars.all (fun w => decide (w = v)) then .ok Fac.ofOne
      else .ok { kind := .gen, dims := f.dims.filter fun d => decide (d.var ≠ v),
                 fn := fun X => f.call (condArgs f.vars v x X), abs := false }
    | _, _ => .error .ambiguous

/-- `as_constant` of the result of an elimination (nddistr.py:504-505, 707-714) -/
def Res.asConstant : Res V K → Except NErr K
  | .one => .ok 1
  | .prod R => R.asConstant

/-- `NDProductDistr.condition` (nddistr.py:763-783) -/
def condition (sort : List V → List V) (marg : Fac V K → List V → Except NErr (Fac V K)) (range : V → Ext K × Ext K)
    (P : Product V K) (Var : List V) (X : List K) : Except NErr (Product V K) :=
  if ∃ v ∈ Var, v ∉ P.vars then .error .badIndex
  else do
    let (kept, cond) := factorOut P.factors Var
    let new ← cond.mapM fun cf =>
      let c := (Var.zip X).filter fun p => decide (p.1 ∈ cf.vars)
      facCondition range cf (c.map Prod.fst) (c.map Prod.snd)
    let cfp ← mk' sort (kept ++ new)
    let r ← cfp.eliminate sort marg cfp.vars.length cfp.vars
    let nrm ← r.asConstant
    .ok { cfp with factors := optimize (cfp.factors ++ [Fac.ofConst (1 / if nrm = 0 then 1 else nrm)]) }

end Product

/-- `NDDistrWithVarSubst` (nddistr.py:457-480): the variable `v` of `f` is replaced by `g` of the variables `gvars`; `range`
are the ranges of variables, `sort` the sort by `id` -/
def varSubst (sort : List V → List V) (range : V → Ext K × Ext K) (f : Fac V K) (v : V) (g : List K → K)
    (gvars : List V) : Except NErr (Fac V K) :=
  if v ∉ f.vars then .error .badIndex
  else
    let newvars := sort (f.vars.filter (fun w => decide (w ≠ v)) ++ gvars).dedup
    let at' (X : List K) (w : V) : K := X.getD (newvars.idxOf w) 0
    .ok { kind := .gen, dims := newvars.map fun w => ⟨w, (range w).1, (range w).2⟩,
          fn := fun X => f.call (f.vars.map fun w => if w = v then g (gvars.map (at' X)) else at' X w), abs := false }

/-- `NDProductDistr.varschange` (nddistr.py:785-799) -/
def Product.varschange (sort : List V → List V) (range : V → Ext K × Ext K) (P : Product V K) (v : V) (g : List K → K)
    (gvars : List V) (jacobian : Fac V K) : Except NErr (Product V K) :=
  if v ∉ P.vars then .error .badIndex
  else do
    let (kept, elim) := factorOut P.factors [v]
    let new ← elim.mapM fun ef => varSubst sort range ef v g gvars
    mk' sort (kept ++ new ++ [jacobian])

end Pacal.NDim
