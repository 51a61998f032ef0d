import Verif.Segments.Spec
import Mathlib.MeasureTheory.Measure.WithDensity
import Mathlib.MeasureTheory.Measure.Lebesgue.Basic
import Mathlib.MeasureTheory.Integral.Bochner.Basic

/-!
Independent specification: the measure on the real line that a piecewise function stands for.  A piece with a
density contributes the measure with that density, an atom contributes its mass at its point.
-/

namespace Pacal
open MeasureTheory

/-- the measure of one piece -/
noncomputable def Seg.law : Seg ℝ → Measure ℝ
  | .dirac a m => ENNReal.ofReal m • Measure.dirac a
  | s => volume.withDensity fun x => ENNReal.ofReal (s.val x)

/-- the measure of a piecewise function -/
noncomputable def PF.law (l : PF ℝ) : Measure ℝ := (l.map Seg.law).sum

/-- one piece is a (sub)density: nonnegative (up to a null set) and integrable -/
def Seg.Dens : Seg ℝ → Prop
  | .dirac _ m => 0 ≤ m
  | s => (∀ᵐ x, 0 ≤ s.val x) ∧ Integrable (fun x => s.val x) volume

/-- every piece is a (sub)density -/
def PF.Dens (l : PF ℝ) : Prop := ∀ s ∈ l, s.Dens

/-- `t` may directly follow `s` for the CDF to be computed correctly: an atom must sit at the right end of a
piece, a nonzero constant piece must start where the previous piece ends -/
def Seg.follows (s t : Seg ℝ) : Prop :=
  match t with
  | .dirac a _ => s.isDirac = false ∧ s.hi = .fin a
  | .const a _ c => c = 0 ∨ s.hi = .fin a
  | _ => True

/-- no atom is isolated, unless it is the only piece: an atom that comes first is followed by a piece starting at
it, every other atom is preceded by a piece ending at it -/
def PF.Touching : PF ℝ → Prop
  | .dirac a m :: t :: l => t.lo = .fin a ∧ List.IsChain Seg.follows (.dirac a m :: t :: l)
  | l => List.IsChain Seg.follows l

/-- `x` lies in a piece, left of all pieces or right of all pieces -/
def PF.NotInGap (l : PF ℝ) (x : ℝ) : Prop :=
  (∃ s ∈ l, s.isDirac = false ∧ s.lo ≤ .fin x ∧ .fin x < s.hi) ∨ (∀ s ∈ l, .fin x < s.lo) ∨ ∀ s ∈ l, s.hi ≤ .fin x

end Pacal
