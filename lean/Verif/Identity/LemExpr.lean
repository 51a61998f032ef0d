import Verif.Identity.LemStep
import Verif.Distr.PropsDiscrete

/-!
Lemmas for `Verif.Identity.PropsExpr`: the laws are probability laws.
-/

namespace Pacal.Identity
open MeasureTheory ProbabilityTheory Standard Set

theorem kind_prob {k : Kind} (hv : k.Valid) (hx : Exact k) : IsProbabilityMeasure (kindLaw k) := by
  cases k with
  | normal mu sigma => rw [kindLaw]; infer_instance
  | uniform a b =>
    refine cond_isProbabilityMeasure_of_finite ?_ ?_
    · rw [Real.volume_Icc]; simpa using (show a < b from hv)
    · rw [Real.volume_Icc]; exact ENNReal.ofReal_ne_top
  | trapezoidal a b c d =>
    obtain ⟨h1, h2, h3, h4⟩ := hv
    obtain ⟨u, -, ⟨l, e, -, -, h5⟩, h6⟩ := C46_trapezoidal (le_refl (0 : ℝ)) h1 h2 h3 h4
    obtain ⟨l', e', -, -, h7⟩ := trapezoid_rep (le_refl (0 : ℝ)) h1 h2 h3 h4
    rw [← h7]
    obtain rfl : l = l' := by rw [e] at e'; exact Option.some.inj e'
    rw [h5]; exact h6
  | cauchy g c => rw [kindLaw]; infer_instance
  | chiSquare df =>
    have : (1 : ℝ) ≤ df := hv
    exact isProbabilityMeasure_gammaMeasure (by linarith) (by norm_num)
  | exponential a => exact isProbabilityMeasure_expMeasure hv
  | gamma a b => exact isProbabilityMeasure_gammaMeasure hv.1 (one_div_pos.2 hv.2)
  | beta a b => exact isProbabilityMeasureBeta hv.1 hv.2
  | pareto a b => exact isProbabilityMeasure_paretoMeasure hv.2 hv.1
  | levy a b => exact (C46_levy (le_refl (0 : ℝ)) hv b).1.2
  | laplace a b => exact (C46_laplace (le_refl (0 : ℝ)) hv b).1.2
  | studentT a => exact (C46_studentT (le_refl (0 : ℝ)) (lg := fun x => Real.log (Real.Gamma x)) (fun _ _ => rfl) hv).1.2
  | semicircle a => exact (C46_semicircle_partial (le_refl (0 : ℝ)) hv).1.2
  | fDistr a b => exact (C46_fDistr (le_refl (0 : ℝ)) (lg := fun x => Real.log (Real.Gamma x)) (fun _ _ => rfl) hv.1 hv.2).1.2
  | weibull a b => exact (C46_weibull (le_refl (0 : ℝ)) hv.1 hv.2).1.2
  | gumbel a b => exact hx.elim
  | frechet a b c => exact (C46_frechet (le_refl (0 : ℝ)) hv.1 hv.2 c).1.2
  | logLogistic a b => exact (C46_logLogistic (le_refl (0 : ℝ)) hv.1 hv.2).1.2
  | mollifier a => exact hx.elim

theorem measurable_stepFn (s : Step) : Measurable (stepFn s) := by
  cases s with
  | shiftScale a b => unfold stepFn; fun_prop
  | abs => exact continuous_abs.measurable
  | square => unfold stepFn; fun_prop
  | inv => exact measurable_inv
  | exp => exact Real.measurable_exp
  | log => exact Real.measurable_log
  | atan => exact Real.continuous_arctan.measurable
  | pow d => unfold stepFn; fun_prop

theorem opLaw_prob {op : ℝ → ℝ → ℝ} (h : Measurable fun p : ℝ × ℝ => op p.1 p.2) (μ ν : Measure ℝ) [IsProbabilityMeasure μ]
    [IsProbabilityMeasure ν] : IsProbabilityMeasure (opLaw op μ ν) := Measure.isProbabilityMeasure_map h.aemeasurable

theorem table_prob {δ : ℝ} {t : List (ℝ × ℝ)} (h : TableOK δ t) :
    IsProbabilityMeasure (t.map fun p => ENNReal.ofReal p.2 • Measure.dirac p.1 : List (Measure ℝ)).sum := by
  refine ⟨?_⟩
  have : ∀ t : List (ℝ × ℝ), (∀ p ∈ t, 0 ≤ p.2) → 0 ≤ (t.map Prod.snd).sum ∧
      (t.map fun p => ENNReal.ofReal p.2 • Measure.dirac p.1 : List (Measure ℝ)).sum univ = ENNReal.ofReal (t.map Prod.snd).sum := by
    intro t
    induction t with
    | nil => simp
    | cons p t ih =>
      intro hp
      obtain ⟨h1, h2⟩ := ih fun q hq => hp q (List.mem_cons_of_mem _ hq)
      have h0 := hp p (by simp)
      simp only [List.map_cons, List.sum_cons, Measure.add_apply, h2, ENNReal.ofReal_add h0 h1]
      exact ⟨add_nonneg h0 h1, by simp⟩
  rw [(this t h.1).2, h.2.1, ENNReal.ofReal_one]

theorem expr_prob {M : Machine} : ∀ {e : Expr}, ExprOK M e → IsProbabilityMeasure (exprLaw e)
  | .dist k, h => kind_prob h.1 h.2
  | .discrete t, h => table_prob h
  | .step s e, h => by
    have := expr_prob h.1
    exact Measure.isProbabilityMeasure_map (measurable_stepFn s).aemeasurable
  | .add a b, h => by
    have := expr_prob h.1; have := expr_prob h.2.1
    exact opLaw_prob (by fun_prop) _ _
  | .sub a b, h => by
    have := expr_prob h.1; have := expr_prob h.2.1
    exact opLaw_prob (by fun_prop) _ _
  | .mul a b, h => by
    have := expr_prob h.1; have := expr_prob h.2.1
    exact opLaw_prob (by fun_prop) _ _
  | .div a b, h => by
    have := expr_prob h.1; have := expr_prob h.2.1
    exact opLaw_prob (by fun_prop) _ _
  | .min a b, h => by
    have := expr_prob h.1; have := expr_prob h.2.1
    exact opLaw_prob (by fun_prop) _ _
  | .max a b, h => by
    have := expr_prob h.1; have := expr_prob h.2.1
    exact opLaw_prob (by fun_prop) _ _

theorem ne_nil {r : PF ℝ} {μ : Measure ℝ} [IsProbabilityMeasure μ] (h : PF.law r = μ) : r ≠ [] := by
  rintro rfl
  rw [PF.law_nil] at h
  exact IsProbabilityMeasure.ne_zero μ h.symm

theorem alive {μ : Measure ℝ} [IsProbabilityMeasure μ] (h : μ {0} ≠ 1) : μ {0}ᶜ ≠ 0 := by
  rw [Ne, prob_compl_eq_zero_iff (measurableSet_singleton 0)]
  exact h

end Pacal.Identity
