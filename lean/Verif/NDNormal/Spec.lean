import Verif.NDNormal.Model
import Verif.NDNormal.Gauss
import Verif.NDim.Spec

/-!
Specification for multivariate normal distributions: means and covariances by variable, the normal density, integrals.
-/

namespace Pacal.NDNormal
open Pacal.NDim
variable {V K : Type} [DecidableEq V]

/-- a normal distribution has the means `m` and the covariances `C` -/
structure Describes (N : Normal V K) (m : V → K) (C : V → V → K) : Prop where
  nodup : N.vars.Nodup
  mu : N.mu = N.vars.map m
  Sigma : N.Sigma = N.vars.map fun v => N.vars.map (C v)

/-- the variables of a result -/
def GRes.vars : GRes V K → List V
  | .one => []
  | .normal N => N.vars

/-- a result has the means `m` and the covariances `C` for its variables -/
def GRes.Describes : GRes V K → (V → K) → (V → V → K) → Prop
  | .one, _, _ => True
  | .normal N, m, C => NDNormal.Describes N m C

/-- the covariance matrix of the variables of a list -/
def covMatrix (vars : List V) (C : V → V → K) : Matrix {v // v ∈ vars} {v // v ∈ vars} K := Matrix.of fun v w => C v w

/-- the normal density of the variables of a list, where every variable `v` has the value `σ v` -/
noncomputable def normalDens (vars : List V) (m : V → ℝ) (C : V → V → ℝ) (σ : V → ℝ) : ℝ :=
  gdens (covMatrix vars C) fun v => σ v - m v

/-- the density of a distribution where every variable `v` has the value `σ v` -/
noncomputable def Normal.dens (N : Normal V ℝ) (σ : V → ℝ) : ℝ := N.pdf (N.vars.map σ)

/-- the density of a result -/
noncomputable def GRes.dens : GRes V ℝ → (V → ℝ) → ℝ
  | .one, _ => 1
  | .normal N, σ => N.dens σ

/-- several eliminations one after the other -/
def eliminateAll [Field K] [DecidableEq K] (N : Normal V K) : List (List V) → Except GErr (GRes V K)
  | [] => .ok (.normal N)
  | var :: rest => do
    match ← eliminate N var with
    | .one => if rest.flatten = [] then .ok .one else .error .badIndex
    | .normal M => eliminateAll M rest

/-- the real integral with respect to any variable -/
noncomputable def realInt (_ : V) (g : ℝ → ℝ) : ℝ := ∫ t, g t

end Pacal.NDNormal
