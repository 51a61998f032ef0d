import Verif.Conv.Spec

/-!
Specification for C92: what it means that the integral over a pair of pieces is computed up to an error, and that two functions have
the same pieces with close values.
-/

namespace Pacal
open MeasureTheory

/-- the same piece, or the same atom, with values that differ by at most `E x` at (almost) every point `x` of the piece -/
inductive Near (E : ℝ → ℝ) : Seg ℝ → Seg ℝ → Prop
  | fin (p : Pole) (a b : ℝ) (f f' : ℝ → ℝ) (h : ∀ᵐ x, a < x ∧ x < b → |f' x - f x| ≤ E x) : Near E (.fin p a b f) (.fin p a b f')
  | minf (b : ℝ) (f f' : ℝ → ℝ) (h : ∀ᵐ x, x < b → |f' x - f x| ≤ E x) : Near E (.minf b f) (.minf b f')
  | pinf (a : ℝ) (f f' : ℝ → ℝ) (h : ∀ᵐ x, a < x → |f' x - f x| ≤ E x) : Near E (.pinf a f) (.pinf a f')
  | dirac (a m : ℝ) : Near E (.dirac a m) (.dirac a m)

/-- the number of continuous pieces -/
def PF.count (l : PF ℝ) : ℕ := (l.filter fun s => !s.isDirac).length

/-- the result `r` is `v` up to `ε` -/
def Approx (ε : ℝ) (r : Except PyErr ℝ) (v : ℝ) : Prop := ∃ w, r = .ok w ∧ |w - v| ≤ ε

end Pacal
