import Verif.Calc.Model
import Mathlib.RingTheory.Polynomial.Chebyshev
import Mathlib.LinearAlgebra.Matrix.Charpoly.Eigs

/-! Specification for C65: what the derivative, the roots and the trimmed form of an interpolated function are. -/

namespace Pacal
namespace Calc
open Polynomial Polynomial.Chebyshev

/-- the interpolator `I` is the polynomial function `p` -/
def Eval (I : Bary) (p : ℝ[X]) : Prop := ∀ x, I.at x = .ok (p.eval x)

/-- the interpolator with `n` Chebyshev nodes on `[a, b]` and the values of `p` (any weights) -/
noncomputable def sampled (n : ℕ) (a b : ℝ) (p : ℝ[X]) (ws : List ℝ) : Bary :=
  ⟨Nodes.cheb n a b, (Nodes.cheb n a b).map fun x => p.eval x, ws⟩

/-- the Chebyshev polynomial of degree `k` moved from `[-1, 1]` to `[a, b]` -/
noncomputable def scaledT (k : ℕ) (a b : ℝ) : ℝ[X] :=
  (T ℝ (k : ℕ)).comp (Polynomial.C (2 / (b - a)) * X + Polynomial.C (-(a + b) / (b - a)))

/-- the coefficient of the last Chebyshev polynomial, of degree `n - 1`, in the expansion of `p` (degree below `n`):
the quotient of the coefficients of `x ^ (n - 1)` -/
noncomputable def lastCoef (p : ℝ[X]) (n : ℕ) (a b : ℝ) : ℝ := p.coeff (n - 1) / (scaledT (n - 1) a b).coeff (n - 1)

/-- `eig` computes the eigenvalues (assumed of `numpy.linalg.eigvals`) -/
def Eigs (eig : (m : ℕ) → Matrix (Fin m) (Fin m) ℝ → List ℂ) : Prop :=
  ∀ m (M : Matrix (Fin m) (Fin m) ℝ) z, z ∈ eig m M ↔
    ∃ v : Fin m → ℂ, v ≠ 0 ∧ (M.map (fun x : ℝ => (x : ℂ))).mulVec v = z • v

/-- the reported list `r` are the zeros of `q` in `(a, b)`, up to the tolerance for imaginary parts: every real zero
is reported, and every reported point is the real part of a zero that is nearly real -/
def RootsOf (r : List ℝ) (q : ℝ[X]) (a b tol : ℝ) : Prop :=
  (∀ x, a < x → x < b → q.eval x = 0 → x ∈ r) ∧
  ∀ x ∈ r, a < x ∧ x < b ∧ ∃ z : ℂ, aeval z q = 0 ∧ z.re = x ∧ |z.im| < tol * (b - a) / 2

end Calc
end Pacal
