import Verif.Copula.Model
import Mathlib.Analysis.Calculus.Deriv.Basic

/-!
What the user of a copula expects.
-/

namespace Pacal.Copula

/-- the mixed partial derivative in all arguments, each once -/
noncomputable def mixedDeriv : (List ℝ → ℝ) → List ℝ → ℝ
  | f, [] => f []
  | f, x :: xs => deriv (fun t => mixedDeriv (fun ys => f (t :: ys)) xs) x

/-- all coordinates are in the unit interval -/
def InCube (X : List ℝ) : Prop := ∀ x ∈ X, 0 ≤ x ∧ x ≤ 1

/-- all coordinates are strictly between 0 and 1 -/
def InOpenCube (X : List ℝ) : Prop := ∀ x ∈ X, 0 < x ∧ x < 1

/-- the properties of a copula in `d` variables listed in C51: it is grounded, has uniform margins, and lies between the
Fréchet bounds -/
structure CopulaLike (d : ℕ) (C : List ℝ → ℝ) : Prop where
  grounded : ∀ X, X.length = d → InCube X → 0 ∈ X → C X = 0
  margins : ∀ (i : ℕ) (u : ℝ), i < d → 0 ≤ u → u ≤ 1 → C ((List.replicate d 1).set i u) = u
  lower : ∀ X, X.length = d → InCube X → max 0 (X.sum - (d - 1)) ≤ C X
  upper : ∀ X, X.length = d → InCube X → ∀ x ∈ X, C X ≤ x

/-- rectangles have nonnegative measure -/
def TwoIncreasing (C : List ℝ → ℝ) : Prop :=
  ∀ a b c d : ℝ, 0 ≤ a → a ≤ b → b ≤ 1 → 0 ≤ c → c ≤ d → d ≤ 1 → 0 ≤ C [b, d] - C [a, d] - C [b, c] + C [a, c]

/-- the density is the mixed derivative, in the open cube -/
def IsDensity (d : ℕ) (C c : List ℝ → ℝ) : Prop := ∀ X, X.length = d → InOpenCube X → mixedDeriv C X = c X

/-- the generators of the Archimedean copulas, for the parameters for which they are strict -/
def Provided (g : Gen) : Prop :=
  (∃ theta, 0 < theta ∧ g = clayton theta) ∨ (∃ theta, 1 ≤ theta ∧ g = gumbel theta) ∨ ∃ theta, theta ≠ 0 ∧ g = frank theta

/-- the elements of a list whose numbers are not in `var`, or in `var` -/
def without {α : Type} (var : List ℕ) (l : List α) : List α := (l.zipIdx.filter fun p => decide (p.2 ∉ var)).map Prod.fst

def among {α : Type} (var : List ℕ) (l : List α) : List α := (l.zipIdx.filter fun p => decide (p.2 ∈ var)).map Prod.fst

/-- a strict Archimedean generator and its inverse: `φ` is convex and decreasing from `φ 0 = ∞` to `φ 1 = 0` -/
structure Generator (φ ψ : ℝ → ℝ) : Prop where
  one : φ 1 = 0
  anti : StrictAntiOn φ (Set.Ioc 0 1)
  convex : ConvexOn ℝ (Set.Ioc 0 1) φ
  left_inv : ∀ t, 0 < t → t ≤ 1 → ψ (φ t) = t
  range : ∀ s, 0 ≤ s → 0 < ψ s ∧ ψ s ≤ 1
  right_inv : ∀ s, 0 ≤ s → φ (ψ s) = s

/-- the values of numpy are those of the formulas, and `inf` stands for the value of `φ` at 0 -/
structure Gen.Regular (g : Gen) : Prop where
  gen : Generator g.fi g.inv
  fi_zero : g.npFi 0 = ⊤
  fi_pos : ∀ t, 0 < t → t ≤ 1 → g.npFi t = (g.fi t : WithTop ℝ)
  inv_top : g.npInv ⊤ = 0
  inv_coe : ∀ s : ℝ, g.npInv (s : WithTop ℝ) = g.inv s
  diff_fi : ∀ t, 0 < t → t < 1 → DifferentiableAt ℝ g.fi t
  diff_inv : ∀ (k : ℕ) (s : ℝ), 0 < s → DifferentiableAt ℝ (iteratedDeriv k g.inv) s

end Pacal.Copula
