import Verif.Base.Err
import Mathlib.Algebra.Polynomial.Eval.Degree
import Mathlib.Algebra.Polynomial.Degree.Defs
import Mathlib.Topology.Order.Basic
import Mathlib.Topology.ContinuousOn
import Mathlib.Analysis.SpecialFunctions.Log.Basic

/-!
# Specification for C72: interpolators of tails and poles
-/

namespace Pacal.Asymp
open Polynomial

/-- There is at least one reported node, every reported node carries the value of `f`, and evaluation there returns it. -/
def Reproduces (f : ℝ → ℝ) (nodes : List (ℝ × ℝ)) (value : ℝ → Except PyErr ℝ) : Prop :=
  nodes ≠ [] ∧ ∀ p ∈ nodes, p.2 = f p.1 ∧ value p.1 = .ok (f p.1)

/-- On `D` the interpolant is `back` of a polynomial in `var x`, with at most `m` coefficients. -/
def InterpolatesIn (D : Set ℝ) (var back : ℝ → ℝ) (m : ℕ) (value : ℝ → Except PyErr ℝ) : Prop :=
  ∃ q : ℝ[X], q.degree < m ∧ ∀ x ∈ D, value x = .ok (back (q.eval (var x)))

/-- Evaluation succeeds on `D` and is continuous there. -/
def ContinuousIn (D : Set ℝ) (value : ℝ → Except PyErr ℝ) : Prop :=
  ∃ g : ℝ → ℝ, ContinuousOn g D ∧ ∀ x ∈ D, value x = .ok (g x)

/-- Evaluation succeeds from `L` on, and the values tend to 0. -/
def VanishesAtInfinity (L : ℝ) (value : ℝ → Except PyErr ℝ) : Prop :=
  ∃ g : ℝ → ℝ, Filter.Tendsto g Filter.atTop (nhds 0) ∧ ∀ x, L ≤ x → value x = .ok (g x)

end Pacal.Asymp
