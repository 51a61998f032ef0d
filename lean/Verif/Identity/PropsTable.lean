import Verif.Identity.LemTable

/-!
# C69: the identities of the textbooks

Full statement: an expression of independent variables that has a standard distribution by a textbook identity (`Same`, `SameExact`)
is evaluated to a density with the same law as the object of that standard distribution.

For functions of one variable, minima and maxima this is proved with any tolerance, for sums, differences and quotients with
exact comparisons.
-/

namespace Pacal.Identity
open MeasureTheory ProbabilityTheory Standard Set Real

/-- the table is right: the expression has the law of the distribution -/
theorem C69_table {e : Expr} {k : Kind} (h : Same e k) : exprLaw e = kindLaw k := by
  cases h with
  | normal_affine a hs hb => exact normal_aff a _
  | uniform_affine a h hb => exact uniform_aff h a hb
  | uniform_flip a h hb => exact uniform_aff_neg h a hb
  | cauchy_affine c a hg hb => exact cauchy_aff hg c a hb
  | laplace_affine m a hl hb => exact laplace_aff hl m a hb
  | levy_affine m a hc hb => exact levy_aff hc m a hb
  | frechet_affine m a hal hs hb => exact frechet_aff hs m a hb
  | gamma_scale hk ht hb =>
    refine (gamma_scale (one_div_pos.2 ht) hb).trans ?_
    rw [kindLaw, div_div, mul_comm]
  | exponential_scale hr hb => exact gamma_scale hr hb
  | weibull_scale hk hl hb => exact weibull_scale hl hb
  | logLogistic_scale hk hs hb => exact logLogistic_scale hs hb
  | pareto_scale ha hx hb => exact pareto_scale hx hb
  | semicircle_scale hR hb => exact semicircle_scale hR hb
  | beta_flip ha hb => exact beta_flip
  | exp_exponential ha => exact exp_exponential ha
  | log_pareto ha => exact log_pareto ha
  | log_uniform ha => exact neg_log_uniform ha
  | inv_cauchy hg => exact inv_cauchy hg
  | inv_weibull hk hl => exact inv_weibull hl
  | inv_frechet hk hs => exact inv_frechet hs
  | inv_logLogistic hk hs => exact inv_logLogistic hs
  | inv_fDistr ha hb => exact inv_fisher ha hb
  | inv_levy hc => exact inv_levy hc
  | inv_pareto ha => exact inv_pareto ha
  | pow_weibull hk hl hd => exact pow_weibull hl hd
  | pow_exponential hr hd => exact pow_exponential hr hd
  | pow_pareto ha hx hd => exact pow_pareto hx hd
  | pow_logLogistic hk hs hd => exact pow_logLogistic hs hd
  | pow_uniform ha => exact pow_uniform ha
  | square_normal hs => exact square_normal hs
  | square_standard =>
    refine (square_normal one_pos).trans ?_
    rw [kindLaw, kindLaw, one_pow, mul_one]
  | square_studentT hv => exact square_student hv
  | abs_laplace hl => exact abs_laplace hl
  | atan_cauchy => exact atan_cauchy
  | chiSquare_gamma hd => exact chi_gamma _
  | gamma_exponential ht => exact gamma_one
  | weibull_exponential hr => exact (weibull_one hr).symm
  | studentT_cauchy => exact student_one
  | beta_uniform => exact beta_one
  | trapezoidal_uniform h => exact trapezoid_uniform h
  | min_exponential h₁ h₂ => exact exp_min h₁ h₂
  | min_weibull hk h₁ h₂ => exact weibull_min hk h₁ h₂
  | min_pareto h₁ h₂ hx => exact pareto_min h₁ h₂ hx
  | max_frechet ha h₁ h₂ => exact frechet_max ha h₁ h₂
  | max_beta ha hb => exact beta_max ha hb

/-- the table of sums, differences and quotients is right -/
theorem C69_table_two {e : Expr} {k : Kind} (h : SameExact e k) : exprLaw e = kindLaw k := by
  cases h with
  | add_normal h₁ h₂ => exact normal_add _ _ _ _
  | sub_normal h₁ h₂ => exact normal_sub _ _ _
  | add_gamma hp hq ht => exact gamma_add hp hq (one_div_pos.2 ht)
  | add_exponential hr =>
    refine (gamma_add one_pos one_pos hr).trans ?_
    rw [kindLaw, one_div_one_div, one_add_one_eq_two]
  | add_chiSquare hp hq =>
    refine (gamma_add (by linarith) (by linarith) (by norm_num)).trans ?_
    rw [kindLaw, add_div]
  | sub_exponential hr => exact exp_sub' hr
  | add_uniform h₁ h₂ hw => exact uniform_add h₁ h₂ hw
  | div_normal h₁ h₂ => exact normal_div h₁ h₂
  | div_exponential h₁ h₂ => exact exp_div h₁ h₂
  | fDistr ha hb => exact fisher_div (by linarith) (by linarith)
  | studentT hv => exact student_div (by linarith)

/-- **C69.** Functions of one variable, minima and maxima: evaluating the expression and building the standard distribution both succeed
and give the same law. -/
theorem C69_same {M : Machine} (hM : MachineOK M) {e : Expr} {k : Kind} (h : Same e k) :
    ∃ r l, e.run M = some r ∧ k.build M.env = some l ∧ PF.law r = PF.law l :=
  C68_same_partial (e' := .dist k) hM (same_ok hM h) (same_valid h) (C69_table h)

/-- **C69, sums, differences and quotients**, with exact comparisons (for other tolerances the break points of the arguments must be far
enough apart, see C12 and C14). -/
theorem C69_same_two_partial {M : Machine} (hM : Unlimited M) {e : Expr} {k : Kind} (h : SameExact e k) :
    ∃ r l, e.run M = some r ∧ k.build M.env = some l ∧ PF.law r = PF.law l :=
  C68_same_partial (e' := .dist k) hM.toMachineOK (exact_ok hM h) (exact_valid h) (C69_table_two h)

/-! ### the hypotheses can be met -/

/-- the square of a standard normal variable is evaluated to the law of the chi square distribution -/
example : ∃ r l, (Expr.step .square (.dist (.normal 0 1))).run ideal = some r ∧ (Kind.chiSquare 1).build ideal.env = some l ∧
    PF.law r = PF.law l := C69_same ideal_ok.toMachineOK .square_standard

/-- `U(0,1) + U(0,1)` is triangular -/
example : ∃ r l, (Expr.add (.dist (.uniform 0 1)) (.dist (.uniform 0 1))).run ideal = some r ∧
    (Kind.trapezoidal (0 + 0) (1 + 0) (0 + 1) (1 + 1)).build ideal.env = some l ∧ PF.law r = PF.law l :=
  C69_same_two_partial ideal_ok (.add_uniform one_pos one_pos le_rfl)

end Pacal.Identity
