import Verif.Noisy.Model
import Mathlib.MeasureTheory.Constructions.BorelSpace.Basic
import Mathlib.MeasureTheory.Measure.Lebesgue.Basic
import Mathlib.MeasureTheory.Measure.WithDensity
import Mathlib.Probability.Independence.Basic

/-!
What the user of a noisy function expects: variables `X` and independent noise `E` on a probability space.
-/

open MeasureTheory ProbabilityTheory Set

namespace Pacal.Noisy

variable {Ω : Type*} [MeasurableSpace Ω] {n : ℕ}

/-- the noise described by the object: a density that vanishes outside the range -/
structure GoodNoise (o : Noisy n) : Prop where
  nonneg : ∀ x, 0 ≤ o.noise x
  meas : Measurable o.noise
  one : ∫⁻ x, ENNReal.ofReal (o.noise x) = 1
  zero : ∀ x : ℝ, ¬(o.na ≤ x ∧ (x : EReal) ≤ o.nb) → o.noise x = 0

/-- the variables `X` have the given ranges and are independent of the noise `E` -/
structure Describes (o : Noisy n) (P : Measure Ω) (X : Ω → Fin n → ℝ) (E : Ω → ℝ) : Prop where
  measX : Measurable X
  measE : Measurable E
  measF : Measurable o.f
  noise : GoodNoise o
  law : P.map E = volume.withDensity fun x => ENNReal.ofReal (o.noise x)
  indep : IndepFun X E P
  range : ∀ᵐ ω ∂P, X ω ∈ Icc o.lo o.hi

/-- the range of the function is known: it is given, or the function is increasing in all variables, or decreasing in all variables -/
def RangeKnown (o : Noisy n) : Prop :=
  match o.fRange with
  | some r => ∀ x ∈ Icc o.lo o.hi, r.1 ≤ o.f x ∧ o.f x ≤ r.2
  | none => MonotoneOn o.f (Icc o.lo o.hi) ∨ AntitoneOn o.f (Icc o.lo o.hi)

/-- a variable of the function with a value for it -/
def point (x : Fin n → ℝ) (z : ℝ) : Fin (n + 1) → ℝ := Fin.snoc x z

end Pacal.Noisy
