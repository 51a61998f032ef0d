import Verif.NDim.Model
import Mathlib.Logic.Function.Basic

/-!
Specification for joint densities: values at an assignment of all variables, products, iterated integrals.
-/

namespace Pacal.NDim
open Function
variable {V K : Type} [LinearOrder K] [Field K]

/-- the value of a factor when every variable `v` has the value `σ v` -/
def Fac.dens (f : Fac V K) (σ : V → K) : K := f.call (f.vars.map σ)

/-- the product of the values of factors, each at its own variables -/
def joint (fs : List (Fac V K)) (σ : V → K) : K := (fs.map fun f => f.dens σ).prod

/-- a point is inside all ranges of a factor -/
def Fac.Inside (f : Fac V K) (σ : V → K) : Prop := ∀ d ∈ f.dims, d.a ≤ Ext.fin (σ d.var) ∧ Ext.fin (σ d.var) ≤ d.b

/-- some coordinate of a point is outside the range of its dimension -/
def Outside (dims : List (Dim V K)) (X : List K) : Prop :=
  ∃ (i : ℕ) (d : Dim V K) (x : K), dims[i]? = some d ∧ X[i]? = some x ∧ ¬ (d.a ≤ Ext.fin x ∧ Ext.fin x ≤ d.b)

/-- variables are not repeated, and constants are what they say -/
structure Fac.WF (f : Fac V K) : Prop where
  nodup : f.vars.Nodup
  one : f.kind = .one → f.dims = [] ∧ f.fn [] = 1 ∧ f.abs = false
  const : ∀ c, f.kind = .const c → f.dims = [] ∧ f.fn [] = c ∧ f.abs = false

variable [DecidableEq V]

/-- the value of a product when every variable `v` has the value `σ v` -/
def Product.dens (P : Product V K) (σ : V → K) : K := P.toFac.call (P.vars.map σ)

/-- the value of the result of an elimination -/
def Product.Res.dens : Product.Res V K → (V → K) → K
  | .one, _ => 1
  | .prod P, σ => P.dens σ

/-- the variables left after an elimination -/
def Product.Res.vars : Product.Res V K → List V
  | .one => []
  | .prod P => P.vars

/-- iterated integrals: `I v` is the integral with respect to `v`, the first variable of the list is integrated first -/
def integ (I : V → (K → K) → K) : List V → ((V → K) → K) → (V → K) → K
  | [], F, σ => F σ
  | v :: vs, F, σ => integ I vs (fun τ => I v fun x => F (update τ v x)) σ

/-- what is assumed of the integral: constants can be taken out -/
def Homogeneous (I : V → (K → K) → K) : Prop := ∀ v c g, I v (fun x => c * g x) = c * I v g

/-- what is assumed of the elimination of variables from a single factor: the result is about the other variables, is a
constant if there are none, and its value is the integral over the eliminated variables in some order -/
def MargOk (I : V → (K → K) → K) (marg : Fac V K → List V → Except NErr (Fac V K)) : Prop :=
  ∀ f vs g, f.WF → vs.Nodup → (∀ v ∈ vs, v ∈ f.vars) → marg f vs = .ok g →
    g.WF ∧ (∀ v, v ∈ g.vars ↔ v ∈ f.vars ∧ v ∉ vs) ∧ (g.vars = [] → g.kind ≠ .gen) ∧
    ∃ order, order.Perm vs ∧ ∀ σ, g.dens σ = integ I order f.dens σ

/-- the elimination of variables from one factor does not fail -/
def MargTotal (marg : Fac V K → List V → Except NErr (Fac V K)) : Prop :=
  ∀ f vs, f.WF → f.kind = .gen → vs.Nodup → vs ≠ [] → (∀ v ∈ vs, v ∈ f.vars) → ∃ g, marg f vs = .ok g

/-- any two integrals can be exchanged -/
def Exchangeable (I : V → (K → K) → K) : Prop :=
  ∀ v w, v ≠ w → ∀ g : K → K → K, I v (fun x => I w (g x)) = I w (fun y => I v fun x => g x y)

/-- factors without variables are constants -/
def ConstFree (fs : List (Fac V K)) : Prop := ∀ f ∈ fs, f.vars = [] → f.kind ≠ .gen

/-- the factors that are not constants -/
def gens (fs : List (Fac V K)) : List (Fac V K) :=
  fs.filter fun f => match f.kind with
    | .gen => true
    | _ => false

/-- the sort changes the order only -/
def SortOk (sort : List V → List V) : Prop := ∀ l, (sort l).Perm l

/-- an assignment with the values of a condition -/
def override (c : List (V × K)) (σ : V → K) (v : V) : K :=
  match c.find? fun p => decide (p.1 = v) with
  | some p => p.2
  | none => σ v

/-- products as they are made by `NDProductDistr` and its methods: variables are those of the factors, ranges are the
intersections of the ranges in the factors -/
structure Product.WF (P : Product V K) : Prop where
  nodup : P.vars.Nodup
  fac : ∀ f ∈ P.factors, f.WF
  mem : ∀ v, v ∈ P.vars ↔ ∃ e ∈ P.factors.flatMap Fac.dims, e.var = v
  box : ∀ d ∈ P.dims, ∀ x, d.inside x = true ↔ ∀ e ∈ P.factors.flatMap Fac.dims, e.var = d.var → e.inside x = true

end Pacal.NDim
