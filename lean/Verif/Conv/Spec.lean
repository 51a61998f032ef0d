import Verif.Law.Spec
import Mathlib.MeasureTheory.Measure.Prod
import Mathlib.Data.List.ProdSigma

/-!
Independent specification for arithmetic on independent random variables.
-/

namespace Pacal
open MeasureTheory

/-- the law of `op X Y` for independent `X ∼ μ` and `Y ∼ ν` -/
noncomputable def opLaw (op : ℝ → ℝ → ℝ) (μ ν : Measure ℝ) : Measure ℝ := (μ.prod ν).map fun p => op p.1 p.2

/-- the finite ends of the pieces -/
def PF.ends (l : PF ℝ) : Set ℝ := {x | ∃ s ∈ l, s.lo = .fin x ∨ s.hi = .fin x}

/-- no piece starts after a gap: it is the first one, or starts where some piece ends -/
def PF.NoHole (l : PF ℝ) : Prop := ∀ s ∈ l, (∀ t ∈ l, s.lo ≤ t.lo) ∨ ∃ t ∈ l, t.hi = s.lo

/-- the mirror image of `NoHole`: no piece ends before a gap -/
def PF.NoHoleRight (l : PF ℝ) : Prop := ∀ s ∈ l, (∀ t ∈ l, t.hi ≤ s.hi) ∨ ∃ t ∈ l, t.lo = s.hi

/-- the points a piece stands for: the open interval, or the position of an atom -/
def Seg.points : Seg ℝ → Set ℝ
  | .dirac a _ => {a}
  | s => {x | s.lo < .fin x ∧ .fin x < s.hi}

/-- two different results of combining ends of `f` with ends of `g` are farther apart than `δ` -/
def Apart (op : ℝ → ℝ → ℝ) (δ : ℝ) (f g : PF ℝ) : Prop :=
  ∀ a ∈ f.ends, ∀ b ∈ g.ends, ∀ a' ∈ f.ends, ∀ b' ∈ g.ends, op a b ≠ op a' b' → δ < |op a b - op a' b'|

/-- the atoms, as pairs (position, mass) -/
def PF.atomsOf {K : Type*} (l : PF K) : List (K × K) :=
  l.filterMap fun s => match s with
    | .dirac a m => some (a, m)
    | _ => none

/-- the probability of the value `x` for `op X Y`, `X` and `Y` independent with the atoms of `f` and `g`: the sum of
`P(X = a) P(Y = b)` over all `a`, `b` with `op a b = x` -/
def pairMass {K : Type*} [Field K] [DecidableEq K] (op : K → K → K) (f g : PF K) (x : K) : K :=
  ((f.atomsOf ×ˢ g.atomsOf).map fun p => if op p.1.1 p.2.1 = x then p.1.2 * p.2.2 else 0).sum

end Pacal
