import Verif.Summary.Model
import Verif.Quantile.Spec
import Mathlib.MeasureTheory.Measure.Lebesgue.Basic
import Mathlib.MeasureTheory.Measure.WithDensity

/-!
Specification of the summary statistics: the points where a piecewise function is largest or smallest, and what is assumed of
the numerical minimiser.
-/

namespace Pacal.Summary
open Filter Topology Set MeasureTheory

/-- `v` is a value of the piece at `x`: the value of its function on the closed piece, its limit at an infinite end, the mass
of an atom at its position -/
def Attains (s : Seg ℝ) (x : EReal) (v : ℝ) : Prop :=
  match s with
  | .fin _ a b f => ∃ y : ℝ, x = y ∧ a ≤ y ∧ y ≤ b ∧ v = f y
  | .const a b c => ∃ y : ℝ, x = y ∧ a ≤ y ∧ y ≤ b ∧ v = c
  | .minf b f => (∃ y : ℝ, x = y ∧ y ≤ b ∧ v = f y) ∨ (x = ⊥ ∧ Tendsto f atBot (𝓝 v))
  | .pinf a f => (∃ y : ℝ, x = y ∧ a ≤ y ∧ v = f y) ∨ (x = ⊤ ∧ Tendsto f atTop (𝓝 v))
  | .dirac a m => x = a ∧ v = m

/-- `v` is the largest value of the piecewise function, and `x` a place where it is attained -/
def IsLargest (l : PF ℝ) (x : EReal) (v : ℝ) : Prop :=
  (∃ s ∈ l, Attains s x v) ∧ ∀ s ∈ l, ∀ y w, Attains s y w → w ≤ v

/-- `v` is the smallest value of the piecewise function, and `x` a place where it is attained -/
def IsSmallest (l : PF ℝ) (x : EReal) (v : ℝ) : Prop :=
  (∃ s ∈ l, Attains s x v) ∧ ∀ s ∈ l, ∀ y w, Attains s y w → v ≤ w

/-- the minimiser returns a smallest value of `g` on `[a, b]` -/
def Finds (M : Minimizer) (g : ℝ → ℝ) (a b : ℝ) : Prop := M g a b ∈ Icc a b ∧ ∀ y ∈ Icc a b, g (M g a b) ≤ g y

/-- `g` first falls and then rises, or is constant -/
def Valley (g : ℝ → ℝ) (a b : ℝ) : Prop :=
  (∃ c ∈ Icc a b, StrictAntiOn g (Icc a c) ∧ StrictMonoOn g (Icc c b)) ∨ ∀ y ∈ Icc a b, g y = g a

/-- what is assumed of `fminbound`: it finds the minimum of a function with one valley -/
def GoodSearch (M : Minimizer) : Prop := ∀ g a b, a ≤ b → Valley g a b → Finds M g a b

/-- `f` first rises, up to a point `c ≥ lo`, and then falls, or is constant -/
def Hump (f : ℝ → ℝ) (lo a b : ℝ) : Prop :=
  (∃ c ∈ Icc a b, lo ≤ c ∧ StrictMonoOn f (Icc a c) ∧ StrictAntiOn f (Icc c b)) ∨ ∀ y ∈ Icc a b, f y = f a

/-- the piece has one hump; on an unbounded piece its top is at most 1 away from the finite end and the function has a limit
at infinity.  (With a pole on the right the code leaves out the first `1e-14` of the piece.) -/
def OneHump : Seg ℝ → Prop
  | .fin .right a b f => a + 1e-14 ≤ b ∧ Hump f (a + 1e-14) a b
  | .fin _ a b f => a ≤ b ∧ Hump f a a b
  | .const a b _ => a ≤ b
  | .minf b f => (∃ c ∈ Icc (b - 1) b, StrictMonoOn f (Iic c) ∧ StrictAntiOn f (Icc c b)) ∧ ∃ v, Tendsto f atBot (𝓝 v)
  | .pinf a f => (∃ c ∈ Icc a (a + 1), StrictMonoOn f (Icc a c) ∧ StrictAntiOn f (Ici c)) ∧ ∃ v, Tendsto f atTop (𝓝 v)
  | .dirac _ _ => True

/-- the search succeeds on the piece: the minimiser finds a largest value of `f` on the interval it is called for, and the rest
of the piece has no larger value -/
def Searched (P : Search) (s : Seg ℝ) : Prop :=
  match s with
  | .fin .left a b _ => Finds P.M (fun x => -s.call x + 1e-14) a b
  | .fin .right a b f => Finds P.M (fun x => -s.call x) (a + 1e-14) b ∧ ∀ y ∈ Icc a (a + 1e-14), ∃ z ∈ Icc (a + 1e-14) b, f y ≤ f z
  | .fin .none a b _ => Finds P.M (fun x => -s.call x) a b
  | .const a b _ => Finds P.M (fun x => -s.call x) a b
  | .minf b f => (∃ v, Tendsto f atBot (𝓝 v)) ∧ ∃ L, findLeftpoint P.ym P.fuel f b = some L ∧
      Finds P.M (fun x => -s.call x) L b ∧ ∀ y ≤ L, ∃ z ∈ Icc L b, f y ≤ f z
  | .pinf a f => (∃ v, Tendsto f atTop (𝓝 v)) ∧ ∃ R, findRightpoint P.ym P.fuel f a = some R ∧
      Finds P.M (fun x => -s.call x) a R ∧ ∀ y ≥ R, ∃ z ∈ Icc a R, f y ≤ f z
  | .dirac _ _ => True

/-- the same for the smallest value; on an unbounded piece the rest may also lie above the limit at infinity -/
def SearchedMin (P : Search) (s : Seg ℝ) : Prop :=
  match s with
  | .fin .right a b f => Finds P.M s.call (a + 1e-14) b ∧ ∀ y ∈ Icc a (a + 1e-14), ∃ z ∈ Icc (a + 1e-14) b, f z ≤ f y
  | .fin _ a b _ => Finds P.M s.call a b
  | .const a b _ => Finds P.M s.call a b
  | .minf b f => ∃ v, Tendsto f atBot (𝓝 v) ∧ ∃ L, findLeftpoint P.ym P.fuel f b = some L ∧
      Finds P.M s.call L b ∧ ∀ y ≤ L, v ≤ f y ∨ ∃ z ∈ Icc L b, f z ≤ f y
  | .pinf a f => ∃ v, Tendsto f atTop (𝓝 v) ∧ ∃ R, findRightpoint P.ym P.fuel f a = some R ∧
      Finds P.M s.call a R ∧ ∀ y ≥ R, v ≤ f y ∨ ∃ z ∈ Icc a R, f z ≤ f y
  | .dirac _ _ => True

/-- `d` is a median absolute deviation of `μ`: a median of `|X - m|` where `m` is a median of `X` -/
def IsMedianAD (μ : Measure ℝ) (d : EReal) : Prop :=
  ∃ m : ℝ, IsQuantile μ (1 / 2) (m : EReal) ∧ IsQuantile (μ.map fun x => |x - m|) (1 / 2) d

/-- the masses of the atoms are positive -/
def PosAtoms (l : PF ℝ) : Prop := ∀ a m, Seg.dirac a m ∈ l → 0 < m

/-- the measure with density `φ` and masses `a` at the points of `A` -/
noncomputable def mix (φ : ℝ → ℝ) (A : Finset ℝ) (a : ℝ → ℝ) : Measure ℝ :=
  volume.withDensity (fun x => ENNReal.ofReal (φ x)) + ∑ x ∈ A, ENNReal.ofReal (a x) • Measure.dirac x

end Pacal.Summary
