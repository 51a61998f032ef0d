import Verif.Depend.Model
import Mathlib.Probability.CDF
import Mathlib.Probability.Moments.Covariance
import Mathlib.Probability.Moments.Variance

/-!
What the user of the measures of dependence expects, for random variables `X` and `Y` on a probability space.
-/

open MeasureTheory ProbabilityTheory

namespace Pacal.Depend

variable {Ω : Type*} [MeasurableSpace Ω]

/-- Pearson's coefficient of correlation -/
noncomputable def pearson (P : Measure Ω) (X Y : Ω → ℝ) : ℝ :=
  cov[X, Y; P] / (Real.sqrt Var[X; P] * Real.sqrt Var[Y; P])

/-- the value of the distribution function of `X` at `X` itself -/
noncomputable def rank (P : Measure Ω) (X : Ω → ℝ) (ω : Ω) : ℝ := cdf (P.map X) (X ω)

/-- Spearman's rho: the correlation of the ranks -/
noncomputable def spearman (P : Measure Ω) (X Y : Ω → ℝ) : ℝ := pearson P (rank P X) (rank P Y)

/-- Kendall's tau: the probability that two independent copies of the pair are concordant less the probability that they are
discordant -/
noncomputable def kendall (P : Measure Ω) (X Y : Ω → ℝ) : ℝ :=
  (P.prod P).real {w | 0 < (X w.1 - X w.2) * (Y w.1 - Y w.2)} -
    (P.prod P).real {w | (X w.1 - X w.2) * (Y w.1 - Y w.2) < 0}

/-- `X` and `Y` have continuous distribution functions, and `C` is their copula: it joins the distribution functions to the
joint distribution function -/
structure Joins (C : ℝ → ℝ → ℝ) (P : Measure Ω) (X Y : Ω → ℝ) : Prop where
  meas : Measurable X ∧ Measurable Y
  cont : Continuous (cdf (P.map X)) ∧ Continuous (cdf (P.map Y))
  sklar : ∀ x y, P.real {ω | X ω ≤ x ∧ Y ω ≤ y} = C (cdf (P.map X) x) (cdf (P.map Y) y)

/-- `p` is a joint density of `X` and `Y` -/
structure HasDensity (p : ℝ → ℝ → ℝ) (P : Measure Ω) (X Y : Ω → ℝ) : Prop where
  meas : Measurable X ∧ Measurable Y
  pmeas : Measurable fun z : ℝ × ℝ => p z.1 z.2
  nonneg : ∀ x y, 0 ≤ p x y
  law : P.map (fun ω => (X ω, Y ω)) = (volume : Measure (ℝ × ℝ)).withDensity fun z => ENNReal.ofReal (p z.1 z.2)

/-- `p` is a density of `X` -/
structure HasDensityOne (p : ℝ → ℝ) (P : Measure Ω) (X : Ω → ℝ) : Prop where
  meas : Measurable X
  pmeas : Measurable p
  nonneg : ∀ x, 0 ≤ p x
  law : P.map X = volume.withDensity fun x => ENNReal.ofReal (p x)

/-- the marginals of the object are the distributions of the variables `X 0`, `X 1`, ... -/
structure Describes (o : Obj) (P : Measure Ω) (X : ℕ → Ω → ℝ) : Prop where
  mean : ∀ k v, o.ms[k]? = some v → v.mean = ∫ ω, X k ω ∂P
  std : ∀ k v, o.ms[k]? = some v → v.std = Real.sqrt Var[X k; P]
  range : ∀ k v, o.ms[k]? = some v → ∀ᵐ ω ∂P, v.lo ≤ X k ω ∧ X k ω ≤ v.hi
  density : ∀ k v, o.ms[k]? = some v → HasDensityOne v.pdf P (X k)

/-- the function restricted to the open unit square -/
noncomputable def onSquare (k : ℝ → ℝ → ℝ) (u v : ℝ) : ℝ := if (0 < u ∧ u < 1) ∧ 0 < v ∧ v < 1 then k u v else 0

end Pacal.Depend
