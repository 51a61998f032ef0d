import Verif.Identity.Spec

/-!
Independent specification: the textbook laws of the noncentral distributions.
-/

namespace Pacal.Noncentral
open MeasureTheory ProbabilityTheory Standard Identity Real

/-- the mixture of the laws `ν 0`, `ν 1`, … with the weights of the Poisson distribution with mean `m` -/
noncomputable def poissonMix (m : ℝ) (ν : ℕ → Measure ℝ) : Measure ℝ :=
  Measure.sum fun j => ENNReal.ofReal (exp (-m) * m ^ j / j.factorial) • ν j

/-- the noncentral chi-square law: a Poisson mixture of chi-square laws with `df + 2j` degrees of freedom -/
noncomputable def chiSquareLaw (df lmbda : ℝ) : Measure ℝ := poissonMix (lmbda / 2) fun j => gammaMeasure ((df + 2 * j) / 2) (1 / 2)

/-- the noncentral beta law: a Poisson mixture of beta laws -/
noncomputable def betaLaw (alpha beta lmbda : ℝ) : Measure ℝ := poissonMix (lmbda / 2) fun j => betaMeasure (alpha + j) beta

/-- the density of the noncentral F law -/
noncomputable def fPdf (df1 df2 lmbda x : ℝ) : ℝ :=
  ∑' j : ℕ, exp (-(lmbda / 2)) * (lmbda / 2) ^ j / (ProbabilityTheory.beta (df1 / 2 + j) (df2 / 2) * j.factorial) *
    (df1 / df2) ^ (df1 / 2 + j) * (df2 / (df2 + df1 * x)) ^ ((df1 + df2) / 2 + j) * x ^ (df1 / 2 - 1 + j)

/-- the noncentral F law -/
noncomputable def fLaw (df1 df2 lmbda : ℝ) : Measure ℝ := Textbook.law fun x => if 0 < x then fPdf df1 df2 lmbda x else 0

/-- the density of the noncentral t distribution -/
noncomputable def tPdf (df mu x : ℝ) : ℝ :=
  df ^ (df / 2) * exp (-(df * mu ^ 2 / (2 * (x ^ 2 + df)))) /
      (√π * Gamma (df / 2) * 2 ^ ((df - 1) / 2) * (x ^ 2 + df) ^ ((df + 1) / 2)) *
    ∫ y in Set.Ioi 0, y ^ df * exp (-(1 / 2 * (y - mu * x / √(x ^ 2 + df)) ^ 2))

/-- the noncentral t law -/
noncomputable def tLaw (df mu : ℝ) : Measure ℝ := Textbook.law (tPdf df mu)

/-- the sum of the squares of independent normal variables with the given means and variance 1 -/
noncomputable def sumSquares (m : ℝ) : List ℝ → Expr
  | [] => .step .square (.dist (.normal m 1))
  | m' :: ms => .add (.step .square (.dist (.normal m 1))) (sumSquares m' ms)

/-- the constructor succeeds and the object it builds is evaluated to a well-formed density of total mass 1 with the law `μ` -/
def Computes (M : Machine) (o : Option Expr) (μ : Measure ℝ) : Prop :=
  ∃ e r, o = some e ∧ e.run M = some r ∧ PF.WF M.env.eps r ∧ PF.Dens r ∧ PF.law r = μ ∧ μ Set.univ = 1

end Pacal.Noncentral
