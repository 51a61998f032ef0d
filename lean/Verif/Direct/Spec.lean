import Verif.Direct.Model
import Verif.Law.Spec
import Mathlib.MeasureTheory.Measure.WithDensity
import Mathlib.MeasureTheory.Measure.Lebesgue.Basic

/-! What the answers of `pdf(x)` are compared with. -/

namespace Pacal.Direct
open MeasureTheory Set Real

/-- the function a distribution object applies to the value of the variable below it -/
noncomputable def Func.fn : Func → ℝ → ℝ
  | .exp => Real.exp
  | .log => Real.log
  | .atan => Real.arctan
  | .tanh => Real.tanh
  | .sigmoid => fun x => 1 / (1 + Real.exp (-x))
  | .tan => Real.tan

/-- where the function is injective -/
def Func.dom : Func → Set ℝ
  | .log => Ioi 0
  | .tan => Ioo (-(π / 2)) (π / 2)
  | _ => univ

/-- the distribution of the variable, when `μ p` is the one of the variable with the density `p` -/
noncomputable def Expr.law (μ : (Option ℝ → Option ℝ) → Measure ℝ) : Expr → Measure ℝ
  | .base p => μ p
  | .shifted shift scale d => (d.law μ).map fun x => scale * x + shift
  | .func F d => (d.law μ).map F.fn
  | .inv d => (d.law μ).map fun x => 1 / x
  | .abs d => (d.law μ).map fun x => |x|
  | .square d => (d.law μ).map fun x => x * x

/-- `p` is a density of `μ`: its values on the reals are, up to a set of length 0, finite and nonnegative and their
integrals are the probabilities -/
def IsDensity (p : ℝ → Except PyErr (Option ℝ)) (μ : Measure ℝ) : Prop :=
  ∃ f : ℝ → ℝ, Measurable f ∧ (∀ x, 0 ≤ f x) ∧ (∀ᵐ x, p x = .ok (some (f x))) ∧
    μ = volume.withDensity fun x => ENNReal.ofReal (f x)

/-- every distribution at the bottom has the density it answers with; asked for nan it answers nan or 0 -/
def Expr.Sound (μ : (Option ℝ → Option ℝ) → Measure ℝ) : Expr → Prop
  | .base p => IsDensity (fun x => .ok (p (some x))) (μ p) ∧ (p none = none ∨ p none = some 0)
  | .shifted _ scale d => scale ≠ 0 ∧ d.Sound μ
  | .func F d => d.law μ F.domᶜ = 0 ∧ d.Sound μ
  | .inv d => d.Sound μ
  | .abs d => d.Sound μ
  | .square d => d.Sound μ

/-- no division by the argument itself: not a reciprocal, an exponential or a logistic function, nor a multiple or an
absolute value of one -/
def Expr.NoReciprocal : Expr → Prop
  | .inv _ => False
  | .func .exp _ => False
  | .func .sigmoid _ => False
  | .shifted _ _ d => d.NoReciprocal
  | .abs d => d.NoReciprocal
  | _ => True

/-- the bounded functions are not applied to a variable whose density divides by its argument -/
def Expr.Safe : Expr → Prop
  | .base _ => True
  | .shifted _ _ d => d.Safe
  | .func F d => (F = .atan ∨ F = .tanh ∨ F = .sigmoid → d.NoReciprocal) ∧ d.Safe
  | .inv d => d.Safe
  | .abs d => d.Safe
  | .square d => d.Safe

/-- the answer of the distribution at the bottom for nan is nan or 0 -/
def Expr.Quiet : Expr → Prop
  | .base p => p none = none ∨ p none = some 0
  | .shifted _ _ d => d.Quiet
  | .func _ d => d.Quiet
  | .inv d => d.Quiet
  | .abs d => d.Quiet
  | .square d => d.Quiet

/-- no reciprocals and no squares -/
def Expr.Pointwise : Expr → Prop
  | .base _ => True
  | .shifted _ _ d => d.Pointwise
  | .func _ d => d.Pointwise
  | .inv _ => False
  | .abs d => d.Pointwise
  | .square _ => False

end Pacal.Direct
