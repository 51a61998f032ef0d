import Verif.Segments.Spec
import Mathlib.Analysis.Calculus.Deriv.Basic
import Mathlib.MeasureTheory.Constructions.BorelSpace.Basic
import Mathlib.MeasureTheory.Constructions.BorelSpace.Real

/-! Specifications used in the statements about functions of a random variable. -/

namespace Pacal
open Set

/-- atoms of `l` are mapped by `g` to the same place or further apart than the merging tolerance -/
def PF.ImagesApart (eps : ℝ) (g : ℝ → ℝ) (l : PF ℝ) : Prop :=
  ∀ a m a' m', Seg.dirac a m ∈ l → Seg.dirac a' m' ∈ l → g a = g a' ∨ eps < |g a - g a'|

/-- `y` lies strictly between two ends, in either order -/
def ExtBetween (e e' : Ext ℝ) (y : ℝ) : Prop := (e < .fin y ∧ .fin y < e') ∨ (e' < .fin y ∧ .fin y < e)

/-- a strictly monotone differentiable function `g` on `[lo, hi]` (`G` is `g` with its limits at infinite arguments or
infinite values), with inverse `h` and the derivative `h'` of `h` -/
structure MonoPair (lo hi : Ext ℝ) (G : Ext ℝ → Ext ℝ) (g h h' : ℝ → ℝ) : Prop where
  meas : Measurable g
  mono : StrictMonoOn G (Icc lo hi) ∨ StrictAntiOn G (Icc lo hi)
  real : ∀ x y, lo ≤ .fin x → .fin x ≤ hi → G (.fin x) = .fin y → g x = y
  diff : ∀ x, lo < .fin x → .fin x < hi → DifferentiableAt ℝ g x
  onto : ∀ y, ExtBetween (G lo) (G hi) y → ∃ x, lo < .fin x ∧ .fin x < hi ∧ g x = y
  left : ∀ x, lo < .fin x → .fin x < hi → h (g x) = x
  deriv : ∀ x, lo < .fin x → .fin x < hi → HasDerivAt h (h' (g x)) (g x)

/-- the sign condition under which `probComposition` chooses the right kind of infinite segment -/
def SignOK (G : Ext ℝ → Ext ℝ) (p q : Ext ℝ) : Prop :=
  (G p = .ninf → G q < .fin 0) ∧ (G p = .pinf → .fin 0 ≤ G q) ∧ (G q = .pinf → .fin 0 < G p) ∧ (G q = .ninf → G p ≤ .fin 0)

/-- the parts of a piece on both sides of 0 -/
noncomputable def Seg.cutEnds (s : Seg ℝ) : List (Ext ℝ × Ext ℝ) :=
  if s.lo < .fin 0 ∧ .fin 0 < s.hi then [(s.lo, .fin 0), (.fin 0, s.hi)] else [(s.lo, s.hi)]

/-- `finv` is the inverse of `f : D → R` and `dfinv` is the derivative of `finv` on `R` -/
def InverseOn (f finv dfinv : ℝ → ℝ) (D R : Set ℝ) : Prop :=
  (∀ x ∈ D, f x ∈ R ∧ finv (f x) = x) ∧ ∀ y ∈ R, finv y ∈ D ∧ f (finv y) = y ∧ HasDerivAt finv (dfinv y) y

end Pacal
