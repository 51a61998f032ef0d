import Verif.NDim.ModelCond
import Verif.NDim.SpecElim
import Verif.NDim.Spec

/-!
What a conditional density is.
-/

open MeasureTheory

namespace Pacal.NDim

variable {V : Type} [DecidableEq V] {Ω : Type*} [MeasurableSpace Ω]

/-- iterated integrals over the real line -/
noncomputable def overR (_ : V) (g : ℝ → ℝ) : ℝ := ∫ x, g x

/-- `q` is a conditional density of the random variables `rest` given `cond`: `vars` are all of them, a point is an assignment of values to
variables.  Nonnegative; multiplied by a joint density `m` of the condition it is a joint density of all; and for a given condition it
integrates to 1. -/
structure IsCond (q : (V → ℝ) → ℝ) (vars rest cond : List V) (P : Measure Ω) (X : V → Ω → ℝ) (m : Fac V ℝ) : Prop where
  marg : IsJoint m P X
  marg_vars : m.vars = cond
  nonneg : ∀ σ, 0 ≤ q σ
  joint : ∀ (n : ℕ) (v : Fin n → V), vars = List.ofFn v →
    P.map (fun ω i => X (v i) ω) = volume.withDensity fun x : Fin n → ℝ =>
      ENNReal.ofReal (q (Function.extend v x 0) * m.dens (Function.extend v x 0))
  total : ∀ σ, m.dens σ ≠ 0 → integ overR rest q σ = 1

end Pacal.NDim
