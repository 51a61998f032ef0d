import Mathlib.Data.EReal.Operations
import Mathlib.Data.Fin.Tuple.Basic
import Mathlib.Algebra.Order.Ring.Abs

/-!
Model of `NDNoisyFun` (`/repo/pacal/depvars/nddistr.py`), the conditional distribution of a function with additive noise.

Simplifications.  The `n` variables of the function have finite ranges, the range of the noise may be infinite.  The variables are
numbered, the number `n` (`Fin.last n`) is the variable of the value.  `noise` is the density of the noise (`noise_distr(x)` is
`noise_distr.pdf(x)`, distr.py:406-408).
-/

namespace Pacal.Noisy

/-- exceptions -/
inductive NErr
  | runtime | index | assertion
  deriving DecidableEq

/-- the arguments of `NDNoisyFun.__init__` (nddistr.py:962) -/
structure Noisy (n : ℕ) where
  f : (Fin n → ℝ) → ℝ
  lo : Fin n → ℝ
  hi : Fin n → ℝ
  noise : ℝ → ℝ
  na : EReal
  nb : EReal
  fRange : Option (ℝ × ℝ)

variable {n : ℕ}

namespace Noisy

/-- `f_a, f_b` (nddistr.py:964-970) -/
noncomputable def fAB (o : Noisy n) : ℝ × ℝ :=
  match o.fRange with
  | none => (min (o.f o.lo) (o.f o.hi), max (o.f o.lo) (o.f o.hi))
  | some r => r

/-- the range of the variable of the value (nddistr.py:971-975) -/
noncomputable def valueLo (o : Noisy n) : EReal := o.na + (o.fAB.1 : ℝ)

@[inherit_doc valueLo]
noncomputable def valueHi (o : Noisy n) : EReal := o.nb + (o.fAB.2 : ℝ)

/-- `pdf` (nddistr.py:985-999), the same for scalars and for each element of arrays -/
noncomputable def pdf (o : Noisy n) (X : Fin (n + 1) → ℝ) : ℝ :=
  let z := X (Fin.last n)
  let fy := o.f (Fin.init X)
  open Classical in
  if o.na ≤ ((z - fy : ℝ) : EReal) ∧ ((z - fy : ℝ) : EReal) ≤ o.nb then o.noise (z - fy) else 0

/-- `a[i]` and `b[i]` (nddistr.py:973-974) -/
noncomputable def a (o : Noisy n) (i : Fin (n + 1)) : EReal := Fin.lastCases o.valueLo (fun i => ((o.lo i : ℝ) : EReal)) i

@[inherit_doc a]
noncomputable def b (o : Noisy n) (i : Fin (n + 1)) : EReal := Fin.lastCases o.valueHi (fun i => ((o.hi i : ℝ) : EReal)) i

/-- the call with arrays, at one point (nddistr.py:88-93): 0 if a coordinate is outside its range -/
noncomputable def call (o : Noisy n) (X : Fin (n + 1) → ℝ) : ℝ :=
  open Classical in
  if ∀ i, o.a i ≤ (X i : EReal) ∧ (X i : EReal) ≤ o.b i then o.pdf X else 0

/-- `eliminate` (nddistr.py:1001-1005) of the variables with the given numbers: the constant factor 1 (`NDOneFactor`) -/
def eliminate (_o : Noisy n) (var : List (Fin (n + 1))) : Except NErr ℝ :=
  if var.length ≠ 1 ∨ var.head? ≠ some (Fin.last n) then .error .runtime else .ok 1

end Noisy

/-- `partial_f.__call__` (nddistr.py:1014-1020): the arguments of the original function, `none` where nothing was assigned.
The second loop runs over the other numbers in increasing order (nddistr.py:1013). -/
def args {d : ℕ} (inds : List (Fin d)) (vals : List ℝ) (X : List ℝ) : Fin d → Option ℝ :=
  let assign : (Fin d → Option ℝ) → Fin d × ℝ → (Fin d → Option ℝ) := fun A p => Function.update A p.1 (some p.2)
  let fixed := (inds.zip vals).foldl assign fun _ => none
  ((((List.finRange d).filter fun i => i ∉ inds).zip X).foldl assign fixed)

/-- the result of `condition`: an `NDFun` with its number of dimensions, its variables, their ranges and its function -/
structure NDFun (d : ℕ) where
  dim : ℕ
  vars : List (Fin d)
  a : Fin d → EReal
  b : Fin d → EReal
  fn : List ℝ → Option ℝ

/-- the call of a function with `None` among the arguments is an error, `none` -/
noncomputable def Noisy.callOpt (o : Noisy n) (A : Fin (n + 1) → Option ℝ) : Option ℝ :=
  open Classical in
  if h : ∀ i, (A i).isSome then some (o.call fun i => (A i).get (h i)) else none

/-- `condition` (nddistr.py:1021-1026); the assertion is in `partial_f.__init__` (nddistr.py:1010) -/
noncomputable def Noisy.condition (o : Noisy n) (var : List (Fin (n + 1))) (X : List ℝ) : Except NErr (NDFun (n + 1)) :=
  if var.length ≠ X.length then .error .assertion
  else .ok { dim := n, vars := (List.finRange (n + 1)).filter fun i => i ∉ var, a := o.a, b := o.b,
             fn := fun Y => o.callOpt (args var X Y) }

/-- `NDFun.__call__` with arrays, at one point (nddistr.py:78-79, 88-93).  Without arguments `X[0]` in `partial_f.__call__`
(nddistr.py:1017) is an error. -/
noncomputable def NDFun.call {d : ℕ} (g : NDFun d) (Y : List ℝ) : Option ℝ :=
  open Classical in
  if Y = [] then none
  else if ∀ p ∈ g.vars.zip Y, g.a p.1 ≤ (p.2 : EReal) ∧ (p.2 : EReal) ≤ g.b p.1 then g.fn Y else some 0

/-- the variables of the result of `NDFun.eliminate` of the variable at the position `v` (nddistr.py:127-182): for one dimension a
constant, otherwise `[self.Vars[i] for i in c_var]` for the other positions up to the number of dimensions -/
def NDFun.eliminateVars {d : ℕ} (g : NDFun d) (v : ℕ) : Except NErr (List (Fin d)) :=
  if ¬v < g.dim then .error .runtime
  else if g.dim = 1 then .ok []
  else ((List.range g.dim).filter fun i => i ≠ v).mapM fun i => match g.vars[i]? with
    | some x => .ok x
    | none => .error .index

end Pacal.Noisy
