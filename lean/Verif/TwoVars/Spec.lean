import Verif.TwoVars.Model
import Verif.Law.Spec
import Verif.Conv.Spec
import Mathlib.MeasureTheory.Measure.Prod
import Mathlib.MeasureTheory.Measure.WithDensity
import Mathlib.Analysis.Calculus.Deriv.Basic

/-! Specification for C66: what sympy has to provide, and the law of a function of two variables with a joint density. -/

namespace Pacal
namespace TwoVars
open MeasureTheory

/-- the law of `op X Y` for variables with the joint density `p` -/
noncomputable def jointLaw (op : ℝ → ℝ → ℝ) (p : ℝ → ℝ → ℝ) : Measure ℝ :=
  ((volume : Measure (ℝ × ℝ)).withDensity fun w => ENNReal.ofReal (p w.1 w.2)).map fun w => op w.1 w.2

/-- in the box `(a, b) × (c, d)` sympy solves `op(x, y) = z` for `y` and differentiates the solution -/
structure Solves (S : Sym) (op : ℝ → ℝ → ℝ) (X Y : Set ℝ) : Prop where
  inv : ∀ x ∈ X, ∀ y ∈ Y, S.along x (op x y) = y
  sol : ∀ x ∈ X, ∀ z, S.along x z ∈ Y → op x (S.along x z) = z
  der : ∀ x ∈ X, ∀ z, S.along x z ∈ Y → HasDerivAt (S.along x) (S.jac x z) z

/-- the curve `op(x, y) = z` is monotone, and sympy finds its intersections with the lines through the sides of the box
`(a, b) × (c, d)`: `φ` is the curve with its values at infinity, on a set `T` that contains the box and the
intersections -/
def Cuts (S : Sym) (a b c d : EReal) (z : ℝ) : Prop :=
  ∃ (φ : EReal → EReal) (T : Set EReal) (A B : EReal), (StrictMonoOn φ T ∨ StrictAntiOn φ T) ∧
    (a ∈ T ∧ b ∈ T ∧ A ∈ T ∧ B ∈ T ∧ ∀ x : ℝ, a < x → (x : EReal) < b → (x : EReal) ∈ T ∧ φ x = S.along x z) ∧
    (S.cutX c z = .ok (some A) ∧ φ A = c) ∧ (S.cutX d z = .ok (some B) ∧ φ B = d) ∧
    S.cutY a z = some (φ a) ∧ S.cutY b z = some (φ b)

/-- the operation takes its extreme values on a box at the corners -/
def Extreme (S : Sym) (op : ℝ → ℝ → ℝ) (si sj : Seg ℝ) : Prop :=
  ∀ x ∈ si.points, ∀ y ∈ sj.points, (∃ r ∈ corners S si sj, r ≤ (op x y : EReal)) ∧ ∃ r ∈ corners S si sj, (op x y : EReal) ≤ r

/-- the assumptions on the operation and on sympy -/
structure Regular (S : Sym) (op : ℝ → ℝ → ℝ) (f g : PF ℝ) : Prop where
  fin : ∀ x ∈ f.ends, ∀ y ∈ g.ends, S.lop x y = some (op x y : ℝ)
  solves : ∀ si ∈ f, ∀ sj ∈ g, Solves S op si.points sj.points
  cuts : ∀ si ∈ f, ∀ sj ∈ g, ∀ z, selected S z si sj → Cuts S si.lo si.hi sj.lo sj.hi z
  extreme : ∀ si ∈ f, ∀ sj ∈ g, Extreme S op si sj
  meas : Measurable fun w : ℝ × ℝ => op w.1 w.2
  measA : Measurable fun w : ℝ × ℝ => S.along w.1 w.2
  measJ : Measurable fun w : ℝ × ℝ => S.jac w.1 w.2

/-- a joint density on the boxes of the pieces -/
structure Joint (p : ℝ → ℝ → ℝ) (f g : PF ℝ) : Prop where
  nonneg : ∀ x y, 0 ≤ p x y
  meas : Measurable fun w : ℝ × ℝ => p w.1 w.2
  int : Integrable fun w : ℝ × ℝ => p w.1 w.2
  supp : ∀ᵐ w : ℝ × ℝ, p w.1 w.2 ≠ 0 → (∃ s ∈ f, w.1 ∈ s.points) ∧ ∃ s ∈ g, w.2 ∈ s.points

end TwoVars
end Pacal
