import Verif.Sampler.Model
import Verif.Standard.Spec
import Mathlib.Probability.Distributions.Gaussian.Real
import Mathlib.Probability.Distributions.Exponential
import Mathlib.Probability.Distributions.Gamma
import Mathlib.Probability.Distributions.Pareto
import Mathlib.Probability.ConditionalProbability

/-!
The laws documented for the functions of `numpy.random`
(https://numpy.org/doc/stable/reference/random/legacy.html), in numpy's parametrisation.
-/

namespace Pacal.Sampler
open MeasureTheory ProbabilityTheory Real Standard Set

/-- the Lomax (Pareto II) density with shape `a`, numpy's `pareto` -/
noncomputable def lomax (a x : ℝ) : ℝ := if 0 ≤ x then a / (1 + x) ^ (a + 1) else 0

/-- the random number generators follow numpy's documentation -/
structure Documented (G : Rng) : Prop where
  /-- `normal(loc, scale)` -/
  normal : ∀ loc scale, 0 < scale → G.normal loc scale = gaussianReal loc (scale ^ 2).toNNReal
  /-- `uniform(low, high)` -/
  uniform : ∀ low high, low < high → G.uniform low high = ProbabilityTheory.cond volume (Set.Ico low high)
  /-- `chisquare(df)`: the gamma law with shape `df/2` and scale 2 -/
  chisquare : ∀ df, 0 < df → G.chisquare df = gammaMeasure (df / 2) (1 / 2)
  /-- `exponential(scale)` -/
  exponential : ∀ scale, 0 < scale → G.exponential scale = expMeasure (1 / scale)
  /-- `gamma(shape, scale)` -/
  gamma : ∀ shape scale, 0 < shape → 0 < scale → G.gamma shape scale = gammaMeasure shape (1 / scale)
  /-- `beta(a, b)` -/
  beta : ∀ a b, 0 < a → 0 < b → G.beta a b = betaMeasure a b
  /-- `pareto(a)` -/
  pareto : ∀ a, 0 < a → G.pareto a = Textbook.law (lomax a)
  /-- `laplace(loc, scale)` -/
  laplace : ∀ loc scale, 0 < scale → G.laplace loc scale = Textbook.law (Textbook.laplace scale loc)
  /-- `standard_t(df)` -/
  standardT : ∀ df, 0 < df → G.standardT df = Textbook.law (Textbook.studentT df)
  /-- `weibull(a)`, scale 1 -/
  weibull : ∀ a, 0 < a → G.weibull a = Textbook.law (Textbook.weibull a 1)
  /-- `gumbel(loc, scale)` -/
  gumbel : ∀ loc scale, 0 < scale → G.gumbel loc scale = Textbook.law (Textbook.gumbel loc scale)
  /-- `f(dfnum, dfden)` -/
  f : ∀ dfnum dfden, 0 < dfnum → 0 < dfden → G.f dfnum dfden = Textbook.law (Textbook.fisher dfnum dfden)

/-- the results of the first `m` calls of `self.d.rand(n)`, cut out of one sequence of draws -/
def batches {Ω : Type*} (X : ℕ → Ω → ℝ) (n m : ℕ) (ω : Ω) : List (List ℝ) :=
  (List.range m).map fun j => (List.range n).map fun i => X (j * n + i) ω

/-- the event that the loop has ended after some batches, with its result in the given sets -/
def event {Ω : Type*} (X : ℕ → Ω → ℝ) (L : ℝ) (As : List (Set ℝ)) : Set Ω :=
  {ω | ∃ m r, reject L As.length (batches X As.length m ω) = some r ∧ List.Forall₂ (fun x A => x ∈ A) r As}

end Pacal.Sampler
