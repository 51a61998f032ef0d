import Verif.NDim.ModelElim
import Mathlib.MeasureTheory.Constructions.Pi
import Mathlib.MeasureTheory.Integral.Bochner.Set
import Mathlib.MeasureTheory.Measure.Lebesgue.Basic
import Mathlib.MeasureTheory.Measure.WithDensity

/-!
What a joint density of random variables is.
-/

open MeasureTheory

namespace Pacal.NDim

variable {V : Type} {Ω : Type*} [MeasurableSpace Ω]

/-- the integral over the range of a dimension -/
noncomputable def rangeIntegral (d : Dim V ℝ) (g : ℝ → ℝ) : ℝ := ∫ x in {x : ℝ | d.a ≤ Ext.fin x ∧ Ext.fin x ≤ d.b}, g x

/-- the values of `f` are a joint density of the random variables `X v`, for the variables `v` of `f` in their order -/
def IsJoint (f : Fac V ℝ) (P : Measure Ω) (X : V → Ω → ℝ) : Prop :=
  ∃ (n : ℕ) (v : Fin n → V), f.vars = List.ofFn v ∧ (Measurable fun x : Fin n → ℝ => f.call (List.ofFn x)) ∧
    (∀ x : Fin n → ℝ, 0 ≤ f.call (List.ofFn x)) ∧
    P.map (fun ω i => X (v i) ω) = volume.withDensity fun x : Fin n → ℝ => ENNReal.ofReal (f.call (List.ofFn x))

end Pacal.NDim
