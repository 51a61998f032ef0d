import Verif.DepVars.Model
import Mathlib.Logic.Function.Basic
import Mathlib.Data.List.Perm.Basic

/-!
Specification for models with equations: well formed models, the assignments a model describes, and what is assumed of
sympy.
-/

namespace Pacal.DepVars
variable {V K : Type} [DecidableEq V]

/-- the assignment satisfies all equations of the model -/
def Mdl.Sol (M : Mdl V K) (σ : V → K) : Prop := ∀ p ∈ M.eqs, p.2.eval σ = some (σ p.1)

/-- every variable is either free or dependent and never both, the dependent ones are those with an equation (and just
one), equations are about variables of the model, and they are not circular -/
structure Mdl.WF (M : Mdl V K) : Prop where
  nodup : (M.free ++ M.dep).Nodup
  all : M.all.Perm (M.free ++ M.dep)
  keys : (M.eqs.map Prod.fst).Perm M.dep
  closed : ∀ p ∈ M.eqs, ∀ w ∈ p.2.vars, w ∈ M.free ++ M.dep
  acyclic : ∃ rank : V → ℕ, ∀ p ∈ M.eqs, ∀ w ∈ p.2.vars, rank w < rank p.1

/-- assumed of sympy: simplification keeps the value and adds no variables; if the solver leaves exactly one solution then
it is equivalent to the equation, and is made of the other variables -/
structure Sympy.Ok (env : Sympy V K) : Prop where
  norm_eval : ∀ e σ, (env.norm e).eval σ = e.eval σ
  norm_vars : ∀ e v, v ∈ (env.norm e).vars → v ∈ e.vars
  solve_eval : ∀ e y x s, Mdl.solutions env e y x = [s] → y ∉ e.vars → x ∈ e.vars →
    ∀ σ, e.eval σ = some (σ y) ↔ s.eval σ = some (σ x)
  solve_vars : ∀ e y x s, Mdl.solutions env e y x = [s] → y ∉ e.vars → x ∈ e.vars →
    ∀ w ∈ s.vars, w = y ∨ w ∈ e.vars ∧ w ≠ x

/-- an expression that is defined everywhere -/
def Expr.Total (e : Expr V K) : Prop := ∀ σ, (e.eval σ).isSome

/-- all equations of the model are defined everywhere -/
def Mdl.Total (M : Mdl V K) : Prop := ∀ p ∈ M.eqs, p.2.Total

/-- the solver answers equations that are defined everywhere with solutions that are defined everywhere (as for linear
equations, but not for `y = exp(x)`) -/
def Sympy.TotalSolver (env : Sympy V K) : Prop :=
  ∀ e y x s, Mdl.solutions env e y x = [s] → e.Total → s.Total

/-- steps of a history of a model -/
inductive Op (V K : Type)
  | exchange (fv dv : V)
  | eliminate (v : V)
  | condition (v : V) (x : K)

/-- one step -/
def Mdl.step (env : Sympy V K) (M : Mdl V K) : Op V K → Except MErr (Mdl V K)
  | .exchange fv dv => M.varschange env fv dv
  | .eliminate v => M.eliminate env v
  | .condition v x => M.condition env v x

/-- a history of steps, none of which fails -/
def Mdl.run (env : Sympy V K) (M : Mdl V K) (ops : List (Op V K)) : Except MErr (Mdl V K) := ops.foldlM (Mdl.step env) M

/-- the conditions made in a history -/
def conditions : List (Op V K) → List (V × K)
  | [] => []
  | .condition v x :: ops => (v, x) :: conditions ops
  | _ :: ops => conditions ops

/-- the expressions in `P` (for instance linear ones) can be solved: substitution and simplification stay in `P`, and an
equation `y = e` with `e` in `P` has exactly one solution for each variable of `e`, which is in `P` again -/
structure Sympy.Solves (env : Sympy V K) (P : Expr V K → Prop) : Prop where
  const : ∀ c, P (.const c)
  subst : ∀ v s e, P s → P e → P (env.norm (Expr.subs v s e))
  unique : ∀ e y x, P e → y ∉ e.vars → x ∈ e.vars → ∃ s, Mdl.solutions env e y x = [s] ∧ P s

/-- pairs are sorted by the first part of their key, whatever comes next -/
def SortsByKey (before : ((ℤ × ℤ) × V × V) → ((ℤ × ℤ) × V × V) → Bool) : Prop :=
  ∀ p q, p.1.1 < q.1.1 → before p q = true ∧ before q p = false

end Pacal.DepVars
