import Verif.Summary.ModelChar
import Verif.Segments.Spec
import Mathlib.Analysis.Calculus.Deriv.Basic

/-! What the extrema of a piecewise function are, and what is asked of the calculus on one piece. -/

namespace Pacal.Summary
open Set

/-- the values of the function at `x`: one value inside of a piece, two (the limits from both sides) where two pieces meet -/
def valuesAt (l : PF ℝ) (x : ℝ) : Set ℝ := {v | ∃ s ∈ l, s.lo ≤ .fin x ∧ .fin x ≤ s.hi ∧ s.fn x = v}

/-- all values of the function on its pieces -/
def values (l : PF ℝ) : Set ℝ := ⋃ x, valuesAt l x

/-- a piece `[a, b]` of the bounded kind without pole -/
def Plain (s : Seg ℝ) (a b : ℝ) : Prop := (∃ f, s = .fin .none a b f) ∨ ∃ c, s = .const a b c

/-- on the piece the function is differentiable, and the code finds points of `(a, b)`, among them all zeros of the derivative
(unless the derivative vanishes identically) -/
structure FindsCritical {I : Type} (O : CharOps I) (f : ℝ → ℝ) (a b : ℝ) : Prop where
  cont : ContinuousOn f (Icc a b)
  diff : DifferentiableOn ℝ f (Ioo a b)
  found : ∃ d r, O.interpDiff f a b = .ok d ∧ O.roots d = .ok r ∧ (∀ x ∈ r, x ∈ Ioo a b) ∧
    ((∀ x ∈ Ioo a b, deriv f x = 0) ∨ ∀ x ∈ Ioo a b, deriv f x = 0 → x ∈ r)

end Pacal.Summary
