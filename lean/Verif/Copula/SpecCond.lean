import Verif.Copula.ModelCond
import Mathlib.Probability.CDF

/-!
What the user of a conditional distribution function expects.
-/

open MeasureTheory ProbabilityTheory

namespace Pacal.Copula

variable {Ω : Type*} [MeasurableSpace Ω]

/-- the variables `Z 0`, `Z 1`, ... have the given marginals, with continuous distribution functions, and the copula `C` -/
structure Joint (ms : List MargR) (C : List ℝ → ℝ) (P : Measure Ω) (Z : ℕ → Ω → ℝ) : Prop where
  meas : ∀ k, k < ms.length → Measurable (Z k)
  marg : ∀ k m, ms[k]? = some m → Continuous m.cdf ∧ ∀ x, m.cdf x = cdf (P.map (Z k)) x
  sklar : ∀ X : List ℝ, X.length = ms.length →
    P.real {ω | ∀ k x, X[k]? = some x → Z k ω ≤ x} = C (margCdf (ms.map MargR.toMarg) X)

/-- `h x` is the conditional probability of the event `E`, given that the variable `X` has the value `x` -/
def IsCondProb (P : Measure Ω) (X : Ω → ℝ) (E : Set Ω) (h : ℝ → ℝ) : Prop :=
  (∀ᵐ ω ∂P, 0 ≤ h (X ω) ∧ h (X ω) ≤ 1) ∧
    ∀ B : Set ℝ, MeasurableSet B → P.real (X ⁻¹' B ∩ E) = ∫ ω in X ⁻¹' B, h (X ω) ∂P

/-- the event that all variables except number `i` are at most the given numbers -/
def others (Z : ℕ → Ω → ℝ) (i : ℕ) (y : List ℝ) : Set Ω :=
  {ω | ∀ k x, y[k]? = some x → (if k < i then Z k ω else Z (k + 1) ω) ≤ x}

/-- `inverse` finds the least solution of `t ≤ f y` in the range of `m`, for the conditional distribution functions `f` -/
def Inverts (g : Gen) (m₀ m : MargR) (inverse : (ℝ → Except CErr ℝ) → ℝ → ℝ) : Prop :=
  ∀ x y t w, 0 < m₀.cdf x → m₀.cdf x < 1 → 0 < t → t < 1 → m.lo ≤ Ext.fin y → Ext.fin y ≤ m.hi → 0 < m.cdf y →
    conditionCDF g [m₀, m] [0] [x] [y] = .ok w →
    (inverse (fun y => conditionCDF g [m₀, m] [0] [x] [y]) t ≤ y ↔ t ≤ w)

end Pacal.Copula
