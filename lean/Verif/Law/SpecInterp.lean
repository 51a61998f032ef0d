import Verif.Law.ModelInterp
import Verif.Law.Spec

/-! Specification for C94. -/

namespace Pacal
open Transform

/-- the second piece has the same ends and the same poles as the first one; an atom is the same atom -/
def SamePlace (s t : Seg ℝ) : Prop :=
  t.lo = s.lo ∧ t.hi = s.hi ∧ t.isDirac = s.isDirac ∧ (∀ p a b f, s = .fin p a b f → ∃ g, t = .fin p a b g) ∧
    ∀ a m, s = .dirac a m → t = .dirac a m

/-- on every piece of `l` the interpolant for this kind of piece differs from the function by at most `e` -/
structure ErrorAtMost (e : ℝ) (I : Interpolators) (l : PF ℝ) : Prop where
  plain : ∀ a b f, .fin .none a b f ∈ l → ∀ x, a ≤ x → x ≤ b → |I.plain f a b x - f x| ≤ e
  left : ∀ a b f, .fin .left a b f ∈ l → ∀ x, a ≤ x → x ≤ b → |I.left f a b x - f x| ≤ e
  right : ∀ a b f, .fin .right a b f ∈ l → ∀ x, a ≤ x → x ≤ b → |I.right f a b x - f x| ≤ e
  const : ∀ a b c, .const a b c ∈ l → ∀ x, a ≤ x → x ≤ b → |I.plain (fun _ => c) a b x - c| ≤ e
  minf : ∀ b f, .minf b f ∈ l → ∀ x, x ≤ b → |I.minf f b x - f x| ≤ e
  pinf : ∀ a f, .pinf a f ∈ l → ∀ x, a ≤ x → |I.pinf f a x - f x| ≤ e

/-- the total length of the continuous pieces (all of them bounded) is `L` -/
inductive HasLength : PF ℝ → ℝ → Prop
  | nil : HasLength [] 0
  | fin (p : Pole) (a b : ℝ) (f : ℝ → ℝ) {l : PF ℝ} {L : ℝ} : HasLength l L → HasLength (.fin p a b f :: l) (b - a + L)
  | const (a b c : ℝ) {l : PF ℝ} {L : ℝ} : HasLength l L → HasLength (.const a b c :: l) (b - a + L)
  | dirac (a m : ℝ) {l : PF ℝ} {L : ℝ} : HasLength l L → HasLength (.dirac a m :: l) L

/-- the error of interpolation on the pieces of the distribution function -/
def CumErrorAtMost (e : ℝ) (I : Interpolators) (eps : ℝ) (q : Quad) (p : QPar) (l : PF ℝ) : Prop :=
  ∀ c, PF.cumint eps q p l = some c → ErrorAtMost e I c

end Pacal
