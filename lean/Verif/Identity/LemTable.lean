import Verif.Identity.LemFibre
import Verif.Identity.SpecTable
import Verif.Identity.PropsExact

/-!
Lemmas for `Verif.Identity.PropsTable`: the entries of the table satisfy the hypotheses of C68.
-/

namespace Pacal.Identity
open MeasureTheory ProbabilityTheory Standard Set Real

theorem dist_cont {M : Machine} (hM : MachineOK M) {k : Kind} (hv : k.Valid) (hx : Exact k) {l : PF ℝ}
    (h : (Expr.dist k).run M = some l) : ContPF l := by
  obtain ⟨r, e1, w, -⟩ := kind_rep (E := M.env) hM.eps hM.lg hv hx
  obtain rfl : r = l := Option.some.inj (e1.symm.trans h)
  exact (kind_tidy hv h w).cont

theorem step_dist {M : Machine} (hM : MachineOK M) {k : Kind} (hv : k.Valid) (hx : Exact k) {s : Step}
    (hs : ∀ pos : Prop, (KindPos k → pos) → StepOK pos s) : ExprOK M (.step s (.dist k)) :=
  ⟨⟨hv, hx⟩, fun l hl => ⟨dist_cont hM hv hx hl, hs _ fun hp => pos_dist hM hv hx hp hl⟩⟩

theorem min_dist {M : Machine} (hM : MachineOK M) {k k' : Kind} (hv : k.Valid) (hx : Exact k) (hv' : k'.Valid) (hx' : Exact k') :
    ExprOK M (.min (.dist k) (.dist k')) :=
  ⟨⟨hv, hx⟩, ⟨hv', hx'⟩, fun _ _ hf _ => atomsApart_cont (dist_cont hM hv hx hf)⟩

theorem max_dist {M : Machine} (hM : MachineOK M) {k k' : Kind} (hv : k.Valid) (hx : Exact k) (hv' : k'.Valid) (hx' : Exact k') :
    ExprOK M (.max (.dist k) (.dist k')) :=
  ⟨⟨hv, hx⟩, ⟨hv', hx'⟩, fun _ _ hf _ => atomsApart_cont (dist_cont hM hv hx hf)⟩

/-- the parameters of the result are valid -/
theorem same_valid {e : Expr} {k : Kind} (h : Same e k) : k.Valid ∧ Exact k := by
  cases h with
  | normal_affine a hs hb => exact ⟨mul_pos (abs_pos.2 hb) hs, trivial⟩
  | uniform_affine a h hb => exact ⟨by have := mul_lt_mul_of_pos_right h hb; show _ < _; linarith, trivial⟩
  | uniform_flip a h hb => exact ⟨by have := mul_lt_mul_of_neg_right h hb; show _ < _; linarith, trivial⟩
  | cauchy_affine c a hg hb => exact ⟨mul_pos (abs_pos.2 hb) hg, trivial⟩
  | laplace_affine m a hl hb => exact ⟨mul_pos (abs_pos.2 hb) hl, trivial⟩
  | levy_affine m a hc hb => exact ⟨mul_pos hb hc, trivial⟩
  | frechet_affine m a hal hs hb => exact ⟨⟨hal, mul_pos hb hs⟩, trivial⟩
  | gamma_scale hk ht hb => exact ⟨⟨hk, mul_pos hb ht⟩, trivial⟩
  | exponential_scale hr hb => exact ⟨div_pos hr hb, trivial⟩
  | weibull_scale hk hl hb => exact ⟨⟨hk, mul_pos hb hl⟩, trivial⟩
  | logLogistic_scale hk hs hb => exact ⟨⟨hk, mul_pos hb hs⟩, trivial⟩
  | pareto_scale ha hx hb => exact ⟨⟨ha, mul_pos hb hx⟩, trivial⟩
  | semicircle_scale hR hb => exact ⟨mul_pos (abs_pos.2 hb) hR, trivial⟩
  | beta_flip ha hb => exact ⟨⟨hb, ha⟩, trivial⟩
  | exp_exponential ha => exact ⟨⟨ha, one_pos⟩, trivial⟩
  | log_pareto ha => exact ⟨ha, trivial⟩
  | log_uniform ha => exact ⟨ha, trivial⟩
  | inv_cauchy hg => exact ⟨one_div_pos.2 hg, trivial⟩
  | inv_weibull hk hl => exact ⟨⟨hk, one_div_pos.2 hl⟩, trivial⟩
  | inv_frechet hk hs => exact ⟨⟨hk, one_div_pos.2 hs⟩, trivial⟩
  | inv_logLogistic hk hs => exact ⟨⟨hk, one_div_pos.2 hs⟩, trivial⟩
  | inv_fDistr ha hb => exact ⟨⟨hb, ha⟩, trivial⟩
  | inv_levy hc => exact ⟨⟨by norm_num, div_pos two_pos hc⟩, trivial⟩
  | inv_pareto ha => exact ⟨⟨ha, one_pos⟩, trivial⟩
  | pow_weibull hk hl hd => exact ⟨⟨div_pos hk hd, rpow_pos_of_pos hl _⟩, trivial⟩
  | pow_exponential hr hd => exact ⟨⟨one_div_pos.2 hd, rpow_pos_of_pos (one_div_pos.2 hr) _⟩, trivial⟩
  | pow_pareto ha hx hd => exact ⟨⟨div_pos ha hd, rpow_pos_of_pos hx _⟩, trivial⟩
  | pow_logLogistic hk hs hd => exact ⟨⟨div_pos hk hd, rpow_pos_of_pos hs _⟩, trivial⟩
  | pow_uniform ha => exact ⟨⟨ha, one_pos⟩, trivial⟩
  | square_normal hs => exact ⟨⟨by norm_num, mul_pos two_pos (pow_pos hs 2)⟩, trivial⟩
  | square_standard => exact ⟨le_refl (1 : ℝ), trivial⟩
  | square_studentT hv => exact ⟨⟨one_pos, hv⟩, trivial⟩
  | abs_laplace hl => exact ⟨one_div_pos.2 hl, trivial⟩
  | atan_cauchy => exact ⟨by show _ < _; linarith [pi_pos], trivial⟩
  | chiSquare_gamma hd => exact ⟨⟨by linarith, two_pos⟩, trivial⟩
  | gamma_exponential ht => exact ⟨one_div_pos.2 ht, trivial⟩
  | weibull_exponential hr => exact ⟨hr, trivial⟩
  | studentT_cauchy => exact ⟨one_pos, trivial⟩
  | beta_uniform => exact ⟨one_pos, trivial⟩
  | trapezoidal_uniform h => exact ⟨h, trivial⟩
  | min_exponential h₁ h₂ => exact ⟨add_pos h₁ h₂, trivial⟩
  | min_weibull hk h₁ h₂ => exact ⟨⟨hk, rpow_pos_of_pos (add_pos (rpow_pos_of_pos h₁ _) (rpow_pos_of_pos h₂ _)) _⟩, trivial⟩
  | min_pareto h₁ h₂ hx => exact ⟨⟨add_pos h₁ h₂, hx⟩, trivial⟩
  | max_frechet ha h₁ h₂ => exact ⟨⟨ha, rpow_pos_of_pos (add_pos (rpow_pos_of_pos h₁ _) (rpow_pos_of_pos h₂ _)) _⟩, trivial⟩
  | max_beta ha hb => exact ⟨⟨add_pos ha hb, one_pos⟩, trivial⟩

/-- the hypotheses of C68 -/
theorem same_ok {M : Machine} (hM : MachineOK M) {e : Expr} {k : Kind} (h : Same e k) : ExprOK M e := by
  cases h with
  | normal_affine a hs hb => refine step_dist hM ?_ ?_ ?_; exacts [hs, trivial, fun _ _ => hb]
  | uniform_affine a h hb => refine step_dist hM ?_ ?_ ?_; exacts [h, trivial, fun _ _ => hb.ne']
  | uniform_flip a h hb => refine step_dist hM ?_ ?_ ?_; exacts [h, trivial, fun _ _ => hb.ne]
  | cauchy_affine c a hg hb => refine step_dist hM ?_ ?_ ?_; exacts [hg, trivial, fun _ _ => hb]
  | laplace_affine m a hl hb => refine step_dist hM ?_ ?_ ?_; exacts [hl, trivial, fun _ _ => hb]
  | levy_affine m a hc hb => refine step_dist hM ?_ ?_ ?_; exacts [hc, trivial, fun _ _ => hb.ne']
  | frechet_affine m a hal hs hb => refine step_dist hM ?_ ?_ ?_; exacts [⟨hal, hs⟩, trivial, fun _ _ => hb.ne']
  | gamma_scale hk ht hb => refine step_dist hM ?_ ?_ ?_; exacts [⟨hk, ht⟩, trivial, fun _ _ => hb.ne']
  | exponential_scale hr hb => refine step_dist hM ?_ ?_ ?_; exacts [hr, trivial, fun _ _ => hb.ne']
  | weibull_scale hk hl hb => refine step_dist hM ?_ ?_ ?_; exacts [⟨hk, hl⟩, trivial, fun _ _ => hb.ne']
  | logLogistic_scale hk hs hb => refine step_dist hM ?_ ?_ ?_; exacts [⟨hk, hs⟩, trivial, fun _ _ => hb.ne']
  | pareto_scale ha hx hb => refine step_dist hM ?_ ?_ ?_; exacts [⟨ha, hx⟩, trivial, fun _ _ => hb.ne']
  | semicircle_scale hR hb => refine step_dist hM ?_ ?_ ?_; exacts [hR, trivial, fun _ _ => hb]
  | beta_flip ha hb => refine step_dist hM ?_ ?_ ?_; exacts [⟨ha, hb⟩, trivial, fun _ _ => by norm_num [StepOK]]
  | exp_exponential ha => refine step_dist hM ?_ ?_ ?_; exacts [ha, trivial, fun _ _ => trivial]
  | log_pareto ha => refine step_dist hM ?_ ?_ ?_; exacts [⟨ha, one_pos⟩, trivial, fun _ hp => hp trivial]
  | log_uniform ha =>
    have h1 : ExprOK M (.step .log (.dist (.uniform 0 1))) := by
      refine step_dist hM ?_ ?_ ?_; exacts [one_pos, trivial, fun _ hp => hp (le_refl (0 : ℝ))]
    refine ⟨h1, fun l hl => ⟨?_, ?_⟩⟩
    · obtain ⟨l', e1, e2⟩ := run_step hl
      obtain ⟨hc, hs⟩ := h1.2 l' e1
      obtain ⟨w, d, -⟩ := run_facts hM h1.1 e1
      exact step_cont M hM.eps w d hc .log hs (by simp) (by simp) (by simp) (by simp) e2
    · exact div_ne_zero (by norm_num) ha.ne'
  | inv_cauchy hg => refine step_dist hM ?_ ?_ ?_; exacts [hg, trivial, fun _ _ => trivial]
  | inv_weibull hk hl => refine step_dist hM ?_ ?_ ?_; exacts [⟨hk, hl⟩, trivial, fun _ _ => trivial]
  | inv_frechet hk hs => refine step_dist hM ?_ ?_ ?_; exacts [⟨hk, hs⟩, trivial, fun _ _ => trivial]
  | inv_logLogistic hk hs => refine step_dist hM ?_ ?_ ?_; exacts [⟨hk, hs⟩, trivial, fun _ _ => trivial]
  | inv_fDistr ha hb => refine step_dist hM ?_ ?_ ?_; exacts [⟨ha, hb⟩, trivial, fun _ _ => trivial]
  | inv_levy hc => refine step_dist hM ?_ ?_ ?_; exacts [hc, trivial, fun _ _ => trivial]
  | inv_pareto ha => refine step_dist hM ?_ ?_ ?_; exacts [⟨ha, one_pos⟩, trivial, fun _ _ => trivial]
  | pow_weibull hk hl hd => refine step_dist hM ?_ ?_ ?_; exacts [⟨hk, hl⟩, trivial, fun _ hp => ⟨hd.ne', .inr (.inr (.inr (hp trivial)))⟩]
  | pow_exponential hr hd => refine step_dist hM ?_ ?_ ?_; exacts [hr, trivial, fun _ hp => ⟨hd.ne', .inr (.inr (.inr (hp trivial)))⟩]
  | pow_pareto ha hx hd => refine step_dist hM ?_ ?_ ?_; exacts [⟨ha, hx⟩, trivial, fun _ hp => ⟨hd.ne', .inr (.inr (.inr (hp trivial)))⟩]
  | pow_logLogistic hk hs hd => refine step_dist hM ?_ ?_ ?_; exacts [⟨hk, hs⟩, trivial, fun _ hp => ⟨hd.ne', .inr (.inr (.inr (hp trivial)))⟩]
  | pow_uniform ha =>
    refine step_dist hM ?_ ?_ ?_; exacts [one_pos, trivial, fun _ hp => ⟨(one_div_pos.2 ha).ne', .inr (.inr (.inr (hp (le_refl (0 : ℝ)))))⟩]
  | square_normal hs => refine step_dist hM ?_ ?_ ?_; exacts [hs, trivial, fun _ _ => trivial]
  | square_standard => refine step_dist hM ?_ ?_ ?_; exacts [one_pos, trivial, fun _ _ => trivial]
  | square_studentT hv => refine step_dist hM ?_ ?_ ?_; exacts [hv, trivial, fun _ _ => trivial]
  | abs_laplace hl => refine step_dist hM ?_ ?_ ?_; exacts [hl, trivial, fun _ _ => trivial]
  | atan_cauchy => refine step_dist hM ?_ ?_ ?_; exacts [one_pos, trivial, fun _ _ => trivial]
  | chiSquare_gamma hd => exact ⟨hd, trivial⟩
  | gamma_exponential ht => exact ⟨⟨one_pos, ht⟩, trivial⟩
  | weibull_exponential hr => exact ⟨⟨one_pos, one_div_pos.2 hr⟩, trivial⟩
  | studentT_cauchy => exact ⟨one_pos, trivial⟩
  | beta_uniform => exact ⟨⟨one_pos, one_pos⟩, trivial⟩
  | trapezoidal_uniform h => exact ⟨⟨le_refl _, h.le, le_refl _, h⟩, trivial⟩
  | min_exponential h₁ h₂ => refine min_dist hM ?_ ?_ ?_ ?_; exacts [h₁, trivial, h₂, trivial]
  | min_weibull hk h₁ h₂ => refine min_dist hM ?_ ?_ ?_ ?_; exacts [⟨hk, h₁⟩, trivial, ⟨hk, h₂⟩, trivial]
  | min_pareto h₁ h₂ hx => refine min_dist hM ?_ ?_ ?_ ?_; exacts [⟨h₁, hx⟩, trivial, ⟨h₂, hx⟩, trivial]
  | max_frechet ha h₁ h₂ => refine max_dist hM ?_ ?_ ?_ ?_; exacts [⟨ha, h₁⟩, trivial, ⟨ha, h₂⟩, trivial]
  | max_beta ha hb => refine max_dist hM ?_ ?_ ?_ ?_; exacts [⟨ha, one_pos⟩, trivial, ⟨hb, one_pos⟩, trivial]

theorem exact_valid {e : Expr} {k : Kind} (h : SameExact e k) : k.Valid ∧ Exact k := by
  cases h with
  | add_normal h₁ h₂ => exact ⟨sqrt_pos.2 (add_pos (pow_pos h₁ 2) (pow_pos h₂ 2)), trivial⟩
  | sub_normal h₁ h₂ => exact ⟨sqrt_pos.2 (add_pos (pow_pos h₁ 2) (pow_pos h₂ 2)), trivial⟩
  | add_gamma hp hq ht => exact ⟨⟨add_pos hp hq, ht⟩, trivial⟩
  | add_exponential hr => exact ⟨⟨two_pos, one_div_pos.2 hr⟩, trivial⟩
  | add_chiSquare hp hq => exact ⟨by show (1 : ℝ) ≤ _; linarith, trivial⟩
  | sub_exponential hr => exact ⟨one_div_pos.2 hr, trivial⟩
  | add_uniform h₁ h₂ hw => exact ⟨⟨by linarith, by linarith, by linarith, by linarith⟩, trivial⟩
  | div_normal h₁ h₂ => exact ⟨div_pos h₁ h₂, trivial⟩
  | div_exponential h₁ h₂ => exact ⟨⟨one_pos, div_pos h₂ h₁⟩, trivial⟩
  | fDistr ha hb => exact ⟨⟨by linarith, by linarith⟩, trivial⟩
  | studentT hv => exact ⟨one_pos.trans_le hv, trivial⟩

theorem exact_ok {M : Machine} (hM : Unlimited M) {e : Expr} {k : Kind} (h : SameExact e k) : ExprOK M e := by
  refine (defined_ok hM ?_).1
  cases h with
  | add_normal h₁ h₂ => exact ⟨⟨h₁, trivial⟩, ⟨h₂, trivial⟩, trivial, trivial⟩
  | sub_normal h₁ h₂ => exact ⟨⟨h₁, trivial⟩, ⟨h₂, trivial⟩, trivial, trivial⟩
  | add_gamma hp hq ht => exact ⟨⟨⟨hp, ht⟩, trivial⟩, ⟨⟨hq, ht⟩, trivial⟩, trivial, trivial⟩
  | add_exponential hr => exact ⟨⟨hr, trivial⟩, ⟨hr, trivial⟩, trivial, trivial⟩
  | add_chiSquare hp hq => exact ⟨⟨hp, trivial⟩, ⟨hq, trivial⟩, trivial, trivial⟩
  | sub_exponential hr => exact ⟨⟨hr, trivial⟩, ⟨hr, trivial⟩, trivial, trivial⟩
  | add_uniform h₁ h₂ hw => exact ⟨⟨h₁, trivial⟩, ⟨h₂, trivial⟩, trivial, trivial⟩
  | div_normal h₁ h₂ => exact ⟨⟨h₁, trivial⟩, ⟨h₂, trivial⟩, trivial, trivial⟩
  | div_exponential h₁ h₂ => exact ⟨⟨h₁, trivial⟩, ⟨h₂, trivial⟩, trivial, trivial⟩
  | fDistr ha hb =>
    exact ⟨⟨⟨ha, trivial⟩, trivial, (one_div_pos.2 (by linarith)).ne'⟩, ⟨⟨hb, trivial⟩, trivial, (one_div_pos.2 (by linarith)).ne'⟩,
      trivial, trivial⟩
  | studentT hv =>
    rename_i v
    have hv0 : 0 < 1 / v := one_div_pos.2 (by linarith)
    exact ⟨⟨one_pos, trivial⟩, ⟨⟨⟨hv, trivial⟩, trivial, hv0.ne'⟩, trivial, by norm_num, .inr (.inr (.inr ⟨le_rfl, hv0, trivial⟩))⟩,
      trivial, trivial⟩

end Pacal.Identity
