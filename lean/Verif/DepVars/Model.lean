import Mathlib.Data.List.Basic
import Mathlib.Data.Int.Order.Basic

/-!
Model of `Model` (`/repo/pacal/depvars/models.py:36-449`): free variables, dependent variables and their equations.

Simplifications.  A random variable and its symbol are the same thing (`prepare_var`, `sym_to_rv`; symbols are assumed to
be distinct).  The joint density `nddistr` is not modelled here, nor are the lambdified functions and Jacobians made for
it.  Expressions are trees of partial operations (`none` for an undefined value such as the logarithm of a negative
number); sympy's automatic simplification and its solver are parameters (`Sympy`).  A Python exception is an `MErr`.
Printing, plotting and `as1DDistr` are left out.
-/

namespace Pacal.DepVars

/-- sympy expressions -/
inductive Expr (V K : Type)
  | var (v : V)
  | const (c : K)
  | un (f : K → Option K) (e : Expr V K)
  | bin (f : K → K → Option K) (e₁ e₂ : Expr V K)

namespace Expr
variable {V K : Type}

/-- `eq.atoms(sympy.Symbol)` (models.py:90, 94, 106, 127, 184), with repetitions -/
def vars : Expr V K → List V
  | var v => [v]
  | const _ => []
  | un _ e => e.vars
  | bin _ e₁ e₂ => e₁.vars ++ e₂.vars

/-- the value of an expression -/
def eval (σ : V → K) : Expr V K → Option K
  | var v => some (σ v)
  | const c => some c
  | un f e => (e.eval σ).bind f
  | bin f e₁ e₂ => (e₁.eval σ).bind fun x => (e₂.eval σ).bind fun y => f x y

/-- `eq.subs(v, s)` (models.py:128, 185) before simplification -/
def subs [DecidableEq V] (v : V) (s : Expr V K) : Expr V K → Expr V K
  | var w => if w = v then s else var w
  | const c => const c
  | un f e => un f (subs v s e)
  | bin f e₁ e₂ => bin f (subs v s e₁) (subs v s e₂)

end Expr

/-- what is used of sympy: `norm` is its automatic simplification of the result of `subs`; `solve e y x` are the solutions
of `e - y = 0` for `x` (`eq_solve`, sympy_utils.py:47-61); `real s` says that the imaginary part of `s` is 0 at the upper
ends of the ranges (models.py:145-150) -/
structure Sympy (V K : Type) where
  norm : Expr V K → Expr V K
  solve : Expr V K → V → V → List (Expr V K)
  real : Expr V K → Bool

/-- exceptions of `models.py`; `outOfFuel` is a loop that has not ended yet -/
inductive MErr
  | notFree | notDependent | notParent | nonfreeParent | multipleSolutions | hasChildren | assertion | keyError
  | valueError | outOfFuel
  deriving DecidableEq

/-- the attributes of a `Model` (models.py:37-55); `eqs` is the dictionary `rv_to_equation` in insertion order -/
structure Mdl (V K : Type) where
  free : List V
  dep : List V
  all : List V
  eqs : List (V × Expr V K)

namespace Mdl
variable {V K : Type} [DecidableEq V]

/-- `l.remove(v)` -/
def remove (l : List V) (v : V) : Except MErr (List V) := if v ∈ l then .ok (l.erase v) else .error .valueError

/-- `d[v]` -/
def lookup (d : List (V × Expr V K)) (v : V) : Except MErr (Expr V K) :=
  match d.find? fun p => decide (p.1 = v) with
  | some p => .ok p.2
  | none => .error .keyError

/-- `del d[v]` -/
def delKey (d : List (V × Expr V K)) (v : V) : Except MErr (List (V × Expr V K)) :=
  if v ∈ d.map Prod.fst then .ok (d.filter fun p => decide (p.1 ≠ v)) else .error .keyError

/-- `d[v] = e`: an existing key keeps its place -/
def setKey (d : List (V × Expr V K)) (v : V) (e : Expr V K) : List (V × Expr V K) :=
  if v ∈ d.map Prod.fst then d.map fun p => if p.1 = v then (v, e) else p else d ++ [(v, e)]

/-- the loop over the items that substitutes `s` for `v` (models.py:126-128, 181-185) -/
def substAll (env : Sympy V K) (d : List (V × Expr V K)) (v : V) (s : Expr V K) : List (V × Expr V K) :=
  d.map fun p => if v ∈ p.2.vars then (p.1, env.norm (Expr.subs v s p.2)) else p

/-- `Model.__init__` (models.py:37-55): `vars` are the variables of the joint distribution, `rvs` the variables given,
`parentsDep` and `sym` the methods of random variables; sorting by symbol is not modelled -/
def init (vars : List V) (rvs : List V) (parentsDep : V → List V) (sym : V → Expr V K) : Mdl V K :=
  let dep := (rvs ++ rvs.flatMap parentsDep).dedup
  { free := vars, dep := dep, all := (vars ++ dep).dedup, eqs := dep.map fun v => (v, sym v) }

/-- `get_children` (models.py:85-92) -/
def children (M : Mdl V K) (v : V) : List V :=
  (M.eqs.filter fun p => decide (v ∈ p.2.vars)).map Prod.fst

/-- `get_parents` (models.py:93-95) -/
def parents (M : Mdl V K) (v : V) : Except MErr (List V) := (lookup M.eqs v).map fun e => e.vars.dedup

/-- `var_change_helper` (models.py:133-179): the solutions that are kept -/
def solutions (env : Sympy V K) (e : Expr V K) (dv fv : V) : List (Expr V K) :=
  (env.solve e dv fv).filter fun s => decide ((env.solve e dv fv).length ≤ 1) || env.real s

/-- `varschange` (models.py:97-131) -/
def varschange (env : Sympy V K) (M : Mdl V K) (fv dv : V) : Except MErr (Mdl V K) :=
  if fv ∉ M.free then .error .notFree
  else if dv ∉ M.dep then .error .notDependent
  else do
    let e ← lookup M.eqs dv
    if fv ∉ e.vars then .error .notParent
    else if ∃ s ∈ e.vars, s ∉ M.free then .error .nonfreeParent
    else
      match solutions env e dv fv with
      | [inv] => do
        let free ← remove M.free fv
        let free := free ++ [dv]
        let dep := M.dep ++ [fv]
        let dep ← remove dep dv
        let eqs ← delKey M.eqs dv
        let eqs := substAll env eqs fv inv
        let eqs := setKey eqs fv inv
        .ok { free := free, dep := dep, all := M.all, eqs := eqs }
      | _ => .error .multipleSolutions

/-- `eliminate` (models.py:187-209) -/
def eliminate (env : Sympy V K) (M : Mdl V K) (v : V) : Except MErr (Mdl V K) :=
  if v ∈ M.free then
    if ∃ p ∈ M.eqs, v ∈ p.2.vars then .error .hasChildren
    else do
      let free ← remove M.free v
      let all ← remove M.all v
      .ok { M with free := free, all := all }
  else if v ∈ M.dep then do
    let e ← lookup M.eqs v
    let eqs ← delKey M.eqs v
    let eqs := substAll env eqs v e
    let dep ← remove M.dep v
    let all ← remove M.all v
    .ok { M with dep := dep, all := all, eqs := eqs }
  else .error .assertion

/-- `condition` (models.py:383-392) -/
def condition (env : Sympy V K) (M : Mdl V K) (v : V) (x : K) : Except MErr (Mdl V K) :=
  if v ∉ M.free then .error .notFree
  else do
    let eqs := substAll env M.eqs v (.const x)
    let free ← remove M.free v
    let all ← remove M.all v
    .ok { M with free := free, all := all, eqs := eqs }

/-- `are_free` (models.py:351-354): the loop returns in its first round; no variables give Python's `None` -/
def areFree (M : Mdl V K) (vs : List V) : Option Bool :=
  match vs with
  | [] => none
  | v :: _ => some (decide (v ∈ M.free))

/-! ### `inference` -/

/-- a loop `for v in l: M = f(M, v)` -/
def loop (f : Mdl V K → V → Except MErr (Mdl V K)) (M : Mdl V K) (l : List V) : Except MErr (Mdl V K) := l.foldlM f M

/-- equality of sets of variables -/
def sameSet (a b : List V) : Bool := a.all (fun v => decide (v ∈ b)) && b.all (fun v => decide (v ∈ a))

/-- dangling variables (models.py:258-260) -/
def dangling (M : Mdl V K) (wanted : List V) (cond : List (V × K)) : List V :=
  M.dep.filter fun v => decide (v ∉ wanted) && decide (v ∉ cond.map Prod.fst) && (M.children v).isEmpty

/-- dependent variables without parents (models.py:266-269) -/
def constants (M : Mdl V K) : Except MErr (List V) :=
  M.dep.filterMapM fun v => (M.parents v).map fun ps => if ps.isEmpty then some v else none

/-- one round of models.py:270-274 -/
def propagate (env : Sympy V K) (wanted : List V) (M : Mdl V K) (v : V) : Except MErr (Mdl V K) :=
  if v ∉ wanted then M.eliminate env v
  else (lookup M.eqs v).map fun e => { M with eqs := substAll env M.eqs v e }

/-- free variables to remove (models.py:293-297) -/
def removable (M : Mdl V K) (wanted : List V) (cond : List (V × K)) : List V :=
  M.free.filter fun v => decide (v ∉ wanted) && (decide (v ∈ cond.map Prod.fst) || (M.children v).isEmpty)

/-- one round of models.py:299-303; `cond[v]` is the last value given -/
def removeFree (env : Sympy V K) (cond : List (V × K)) (M : Mdl V K) (v : V) : Except MErr (Mdl V K) :=
  match cond.reverse.find? fun p => decide (p.1 = v) with
  | none => M.eliminate env v
  | some p => M.condition env v p.2

/-- `dep_rvs_and_anc` (models.py:307-309) -/
def depAndAnc (M : Mdl V K) (exch : List V) : Except MErr (List V) :=
  let d := M.dep.filter fun v => decide (v ∉ exch)
  (d.mapM M.parents).map fun ps => d ++ ps.flatten

/-- the pairs that may be exchanged with their sort keys (models.py:313-325) -/
def pairs (M : Mdl V K) (wanted exch : List V) : Except MErr (List ((ℤ × ℤ) × V × V)) := do
  let dvs ← M.dep.filterMapM fun v => (M.parents v).map fun ps =>
    if v ∉ exch ∧ ∀ w ∈ ps, w ∈ M.free then some (v, ps) else none
  .ok (dvs.flatMap fun d => d.2.map fun fv =>
    ((if fv ∈ wanted then 1 else 0, ((d.2.length : ℤ) - 1) * (((M.children fv).length : ℤ) - 1)), fv, d.1))

/-- the first pair after sorting by key and then by the identities of the variables (models.py:328-330); `before` is the
order of the sort -/
def firstPair (before : ((ℤ × ℤ) × V × V) → ((ℤ × ℤ) × V × V) → Bool) :
    List ((ℤ × ℤ) × V × V) → Option ((ℤ × ℤ) × V × V)
  | [] => none
  | p :: ps => some (ps.foldl (fun m q => if before q m then q else m) p)

/-- the inner loop of `inference` (models.py:278-338) -/
def inner (env : Sympy V K) (before : ((ℤ × ℤ) × V × V) → ((ℤ × ℤ) × V × V) → Bool) (wanted : List V)
    (cond : List (V × K)) : ℕ → Mdl V K → List V → Except MErr (Mdl V K)
  | 0, _, _ => .error .outOfFuel
  | fuel + 1, M, exch =>
    if sameSet (wanted ++ exch) M.all then .ok M
    else
      let rem := M.removable wanted cond
      if rem ≠ [] then do
        let M ← loop (removeFree env cond) M rem
        inner env before wanted cond fuel M exch
      else do
        let anc ← M.depAndAnc exch
        if ∀ v ∈ anc, v ∈ wanted then .ok M
        else do
          let ps ← M.pairs wanted exch
          match firstPair before ps with
          | none => .ok M
          | some (_, fv, dv) => do
            let M ← M.varschange env fv dv
            if fv ∉ wanted then do
              let M ← M.eliminate env fv
              inner env before wanted cond fuel M exch
            else inner env before wanted cond fuel M (fv :: exch)

/-- the outer loop of `inference` (models.py:254-338) -/
def outer (env : Sympy V K) (before : ((ℤ × ℤ) × V × V) → ((ℤ × ℤ) × V × V) → Bool) (wanted : List V)
    (cond : List (V × K)) : ℕ → Mdl V K → Except MErr (Mdl V K)
  | 0, _ => .error .outOfFuel
  | fuel + 1, M =>
    if sameSet wanted M.all then .ok M
    else
      let rem := M.dangling wanted cond
      if rem ≠ [] then do
        let M ← loop (Mdl.eliminate env) M rem
        outer env before wanted cond fuel M
      else do
        let cs ← M.constants
        let M ← loop (propagate env wanted) M cs
        let M ← inner env before wanted cond fuel M []
        outer env before wanted cond fuel M

/-- `inference(wanted_rvs, cond_rvs, cond_X)` (models.py:247-350): works on a copy, so the model itself is not changed;
surplus variables or values of the condition are dropped by `zip` -/
def inference (env : Sympy V K) (before : ((ℤ × ℤ) × V × V) → ((ℤ × ℤ) × V × V) → Bool) (fuel : ℕ) (M : Mdl V K)
    (wanted : List V) (condVars : List V) (condX : List K) : Except MErr (Mdl V K) :=
  outer env before wanted (condVars.zip condX) fuel M

end Mdl
end Pacal.DepVars
