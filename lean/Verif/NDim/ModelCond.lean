import Verif.NDim.ModelElim

/-!
Model of `NDDistr.condition` and of `ConditionalDistr` (`/repo/pacal/depvars/nddistr.py`).

Simplifications as in `Verif.NDim.ModelElim`: quadrature and interpolation are exact.  The ranges of the variables are the ranges of the
dimensions.  A division of floating point numbers by 0 gives `nan` or an infinity in the code and 0 here; the theorems about values
exclude it or say what happens almost surely.
-/

namespace Pacal.NDim

variable {V K : Type} [LinearOrder K] [Field K]

/-- the check of the values against the ranges (nddistr.py:291-293); `X[i]` fails if there are too few values -/
def checkRanges : List (Dim V K) → List K → Except NErr Unit
  | [], _ => .ok ()
  | _ :: _, [] => .error .badIndex
  | d :: ds, x :: xs => if d.inside x then checkRanges ds xs else .error .assertion

/-- the list `arg` after the first loop of `_cond_f` (nddistr.py:277-278) -/
def given (d : ℕ) (pos : List ℕ) (xs : List K) : List (Option K) :=
  (pos.zip xs).foldl (fun arg p => arg.set p.1 (some p.2)) (List.replicate d none)

/-- the second loop of `_cond_f` (nddistr.py:279-280): the other coordinates, in ascending order -/
def fill : List (Option K) → List K → List K
  | [], _ => []
  | some x :: arg, free => x :: fill arg free
  | none :: _, [] => []
  | none :: arg, y :: free => y :: fill arg free

/-- `c_var` of `prepare_var` (nddistr.py:112): the other dimension numbers, in ascending order -/
def others (d : ℕ) (pos : List ℕ) : List ℕ := (List.range d).filter fun i => decide (i ∉ pos)

/-- `NDDistr.condition(var, *X)` (nddistr.py:286-310) for dimension numbers, with normalisation -/
def conditionIdx (I : Dim V K → (K → K) → K) (f : Fac V K) (pos : List ℕ) (xs : List K) : Except NErr (Fac V K) := do
  checkRanges (pos.filterMap fun i => f.dims[i]?) xs
  if others f.dims.length pos = [] then .ok Fac.ofOne
  else if xs.length ≠ pos.length then .error .assertion
  else
    let unnormalized : Fac V K :=
      { kind := .gen, dims := (others f.dims.length pos).filterMap fun i => f.dims[i]?,
        fn := fun X => f.call (fill (given f.dims.length pos xs) X), abs := false }
    let nrm ← eliminateIdx I unnormalized (List.range unnormalized.dims.length) none none
    match nrm.kind with
    | .const c => .ok { unnormalized with fn := fun X => unnormalized.fn X / c }
    | _ => .error .notConstant

/-- `ConditionalDistr` (nddistr.py:635-643) -/
structure CondFac (V K : Type) where
  nd : Fac V K
  condVars : List ℕ
  marg : Fac V K

/-- the joint variables (nddistr.py:638) -/
def CondFac.vars (c : CondFac V K) : List V := c.nd.vars

/-- `ConditionalDistr.pdf` (nddistr.py:644-645), which is also the call: the masks are those of `nd`.  A wrong number of arguments for
`marg` is an `IndexError` (for `NDNormalDistr` numpy broadcasts them instead). -/
def CondFac.call (c : CondFac V K) (X : List K) : Except NErr K := do
  let args ← pick X c.condVars
  if args.length ≠ c.marg.dims.length then .error .badIndex
  else .ok (c.nd.call X / c.marg.call args)

/-- `ConditionalDistr.__init__` (nddistr.py:636-643) for dimension numbers -/
def mkCond (I : Dim V K → (K → K) → K) (nd : Fac V K) (pos : List ℕ) (marg : Option (Fac V K)) : Except NErr (CondFac V K) :=
  match marg with
  | some m => .ok { nd := nd, condVars := pos, marg := m }
  | none => do
    let m ← eliminateIdx I nd (others nd.dims.length pos) none none
    .ok { nd := nd, condVars := pos, marg := m }

/-- results: a joint density (`NDOneFactor` included) or a conditional one -/
inductive CRes (V K : Type)
  | fac (f : Fac V K)
  | cond (c : CondFac V K)

variable [DecidableEq V]

/-- `NDDistr.condition(var, *X)` (nddistr.py:286-310) for variables -/
def conditionVars (I : Dim V K → (K → K) → K) (f : Fac V K) (vs : List V) (xs : List K) : Except NErr (Fac V K) := do
  let pos ← prepareVar f.vars vs
  conditionIdx I f pos xs

/-- `ConditionalDistr(nd, var)` (nddistr.py:636-643) for variables -/
def conditional (I : Dim V K → (K → K) → K) (nd : Fac V K) (vs : List V) (marg : Option (Fac V K)) : Except NErr (CondFac V K) := do
  let pos ← prepareVar nd.vars vs
  mkCond I nd pos marg

/-- `[self.Vars[i] for i in …]` -/
def varsAt (vars : List V) (pos : List ℕ) : List V := pos.filterMap fun i => vars[i]?

/-- `ConditionalDistr.eliminate` (nddistr.py:646-652) -/
def CondFac.eliminate (I : Dim V K → (K → K) → K) (c : CondFac V K) (vs : List V) : Except NErr (CRes V K) := do
  let var ← prepareVar c.vars vs
  if (∀ i ∈ others c.nd.dims.length var, i ∈ c.condVars) ∧ ∀ i ∈ c.condVars, i ∈ others c.nd.dims.length var then .ok (.fac Fac.ofOne)
  else if ∃ i ∈ var, i ∈ c.condVars then .error .ambiguous
  else
    let nd ← eliminateIdx I c.nd var none none
    let r ← conditional I nd (varsAt c.vars c.condVars) none
    .ok (.cond r)

/-- `ConditionalDistr.condition` (nddistr.py:653-659).  The set `new_cond` is iterated in ascending order. -/
def CondFac.condition (I : Dim V K → (K → K) → K) (c : CondFac V K) (vs : List V) (xs : List K) : Except NErr (CRes V K) := do
  let var ← prepareVar c.vars vs
  let newCond := (List.range c.nd.dims.length).filter fun i => decide (i ∈ c.condVars ∧ i ∉ var)
  let nd ← conditionIdx I c.nd var xs
  if newCond = [] then .ok (.fac nd)
  else
    let r ← conditional I nd (varsAt c.vars newCond) (some c.marg)
    .ok (.cond r)

end Pacal.NDim
