import Verif.Estim.Model

/-! What an estimate is. -/

namespace Pacal.Estim

/-- `kw` gives every name of the first list the value at the same place of the second one, and nothing else -/
def Binds (kw : List (String × ℝ)) (names : List String) (vals : List ℝ) : Prop := kw = names.zip vals

/-- the likelihood of the data under the density `p` -/
noncomputable def likelihood (p : ℝ → ℝ) (xi : List ℝ) : ℝ := (xi.map p).prod

/-- `θ` minimises `f` among the parameter values in `S` (assumed of the result of `fmin`) -/
def MinimisesOn (f : List ℝ → Except PyErr ℝ) (S : Set (List ℝ)) (θ : List ℝ) : Prop :=
  θ ∈ S ∧ ∀ θ' ∈ S, ∀ u v, f θ = .ok u → f θ' = .ok v → u ≤ v

/-- for parameter values in `S` the class `D` can be called with its parameters `names`, and the density at the data is `p θ` -/
structure Family (D : List (String × ℝ) → Except PyErr (PF ℝ)) (names : List String) (S : Set (List ℝ)) (xi : List ℝ)
    (p : List ℝ → ℝ → ℝ) : Prop where
  length : ∀ θ ∈ S, θ.length = names.length
  call : ∀ θ ∈ S, ∀ kw, Binds kw names θ → ∃ pdf, D kw = .ok pdf ∧ ∀ x ∈ xi, pdf.evalVec x = p θ x
  nonneg : ∀ θ ∈ S, ∀ x ∈ xi, 0 ≤ p θ x

end Pacal.Estim
