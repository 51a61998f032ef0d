import Verif.Standard.Model
import Mathlib.MeasureTheory.Measure.Prod
import Mathlib.MeasureTheory.Constructions.BorelSpace.Real
import Mathlib.Analysis.SpecialFunctions.Trigonometric.Basic

/-!
Model of the samplers `rand_raw` of the standard continuous distributions (`/repo/pacal/standard_distr.py`) and of the
rejection sampler of a distribution conditioned on `X > L` (`/repo/pacal/distr.py:1256-1263`).

* A call of a function of `numpy.random` is an independent draw; its law is a parameter (`Rng`), one field for every function
  imported in standard_distr.py:8-9.
* One entry of the returned array is modelled: every sampler applies numpy's elementwise operations to arrays of independent
  draws, so that the entries are independent copies of each other.
* Floating point exceptions (division by a normal draw equal to 0, logarithm of a uniform draw equal to 0) happen with
  probability 0; the model uses the value Lean assigns to these expressions.
-/

namespace Pacal.Sampler
open MeasureTheory Real Standard

/-- the laws of one draw of the functions of `numpy.random` (standard_distr.py:8-9), by the parameters in numpy's order -/
structure Rng where
  normal : ℝ → ℝ → Measure ℝ
  uniform : ℝ → ℝ → Measure ℝ
  chisquare : ℝ → Measure ℝ
  exponential : ℝ → Measure ℝ
  gamma : ℝ → ℝ → Measure ℝ
  beta : ℝ → ℝ → Measure ℝ
  pareto : ℝ → Measure ℝ
  laplace : ℝ → ℝ → Measure ℝ
  standardT : ℝ → Measure ℝ
  weibull : ℝ → Measure ℝ
  gumbel : ℝ → ℝ → Measure ℝ
  f : ℝ → ℝ → Measure ℝ

/-- what `rand_raw` does: a draw with the given law, or a call of `rand_invcdf` (distr.py:299-305, see C60) -/
inductive Outcome where
  | draw (law : Measure ℝ)
  | invcdf

/-- `CauchyDistr.rand_raw` (standard_distr.py:236-237) from the two normal draws -/
noncomputable def cauchyOf (gamma center : ℝ) (z : ℝ × ℝ) : ℝ := center + z.1 / z.2 * gamma

/-- `ParetoDistr.rand_raw` (standard_distr.py:483-484) -/
noncomputable def paretoOf (xmin y : ℝ) : ℝ := xmin + y * xmin

/-- the standard deviation in `LevyDistr.rand_raw` (standard_distr.py:516) -/
noncomputable def levySigma (c : ℝ) : ℝ := 1 / √c

/-- `LevyDistr.rand_raw` (standard_distr.py:517) -/
noncomputable def levyOf (xmin z : ℝ) : ℝ := xmin + 1 / z ^ 2

/-- `SemicircleDistr.rand_raw` (standard_distr.py:600-601) from the two uniform draws -/
noncomputable def semicircleOf (R : ℝ) (u : ℝ × ℝ) : ℝ := R * √u.1 * cos (u.2 * π)

/-- `WeibullDistr.rand_raw` (standard_distr.py:705-706) -/
noncomputable def weibullOf (lmbda y : ℝ) : ℝ := lmbda * y

/-- `FrechetDistr.rand_raw` (standard_distr.py:784-786) -/
noncomputable def frechetOf (alpha s m x : ℝ) : ℝ := m + s * (-log x) ^ (-1 / alpha)

/-- `LogLogisticDistr.rand_raw` (standard_distr.py:852-855) -/
noncomputable def logLogisticOf (k s u : ℝ) : ℝ := s * (u / (1 - u)) ^ (1 / k)

/-- `rand_raw` of the standard distributions (standard_distr.py:164-165, 182-183, 211-212, 236-237, 314-315, 343-344,
402-403, 450-451, 483-484, 515-517, 543-544, 569-570, 600-601, 651-652, 705-706, 742-743, 784-786, 852-855, 893-894).
`LogLogisticDistr` draws `uniform(self.a, self.b, n)`; it never sets these attributes, which have the defaults 0 and 1 of
`RV.__init__` (rv.py:17-20). -/
noncomputable def sample (G : Rng) : Kind → Outcome
  | .normal mu sigma => .draw (G.normal mu sigma)
  | .uniform a b => .draw (G.uniform a b)
  | .trapezoidal _ _ _ _ => .invcdf
  | .cauchy gamma center => .draw (((G.normal 0 1).prod (G.normal 0 1)).map (cauchyOf gamma center))
  | .chiSquare df => .draw (G.chisquare df)
  | .exponential lmbda => .draw (G.exponential (1 / lmbda))
  | .gamma k theta => .draw (G.gamma k theta)
  | .beta alpha beta => .draw (G.beta alpha beta)
  | .pareto alpha xmin => .draw ((G.pareto alpha).map (paretoOf xmin))
  | .levy c xmin => .draw ((G.normal 0 (levySigma c)).map (levyOf xmin))
  | .laplace lmbda mu => .draw (G.laplace mu lmbda)
  | .studentT df => .draw (G.standardT df)
  | .semicircle R => .draw (((G.uniform 0 1).prod (G.uniform 0 1)).map (semicircleOf R))
  | .fDistr df1 df2 => .draw (G.f df1 df2)
  | .weibull k lmbda => .draw ((G.weibull k).map (weibullOf lmbda))
  | .gumbel mu sigma => .draw (G.gumbel mu sigma)
  | .frechet alpha s m => .draw ((G.uniform 0 1).map (frechetOf alpha s m))
  | .logLogistic k s => .draw ((G.uniform 0 1).map (logLogisticOf k s))
  | .mollifier _ => .invcdf

/-- The loop of `CondGtDistr.rand_raw(n)` (distr.py:1257-1262).  `batches` are the results of the successive calls
`self.d.rand(n)`, arrays of length `n`; `none`: the loop is not finished after the given batches. -/
noncomputable def rejectLoop (L : ℝ) (n : ℕ) (tab : List ℝ) (k : ℕ) : List (List ℝ) → Option (List ℝ)
  | [] => if k < n then none else some (tab.take n)
  | x :: rest =>
    if k < n then
      let tab := tab ++ x.filter fun v => decide (v > L)
      rejectLoop L n tab tab.length rest
    else some (tab.take n)

/-- `CondGtDistr.rand_raw(n)` (distr.py:1256-1263) -/
noncomputable def reject (L : ℝ) (n : ℕ) (batches : List (List ℝ)) : Option (List ℝ) := rejectLoop L n [] 0 batches

end Pacal.Sampler
