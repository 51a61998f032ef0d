import Verif.Standard.LemRange
import Verif.Standard.PropsFun

/-!
C63: `range()` of the standard distributions carries all the mass of the density.
-/

namespace Pacal.Standard
open MeasureTheory ProbabilityTheory Real Filter Topology Set

/-- Of every standard distribution with valid parameters, `range()` is an interval outside which the distribution has no
mass.  Missing: the Gumbel distribution, and Fréchet distributions with a negative minimum, for which this is
false (`C63_violated_gumbel`, `C63_violated_frechet`). -/
theorem C63_range_partial (E : Env) (he : 0 ≤ E.eps) (hlg : ∀ x, 0 < x → E.lg x = log (Gamma x)) (k : Kind)
    (hv : k.Valid) (hg : ∀ mu sigma, k ≠ .gumbel mu sigma) (hf : ∀ alpha s m, k = .frechet alpha s m → 0 ≤ m) :
    ∃ l, k.build E = some l ∧ PF.law l (outside k.range) = 0 := by
  cases k with
  | normal mu sigma =>
    exact (C46_normal he mu hv).1.null (by rw [Kind.range, outside_line, measure_empty])
  | uniform a b =>
    refine (C46_uniform he hv).null ?_
    rw [ProbabilityTheory.cond_apply measurableSet_Icc]
    have : Icc a b ∩ outside (Kind.uniform a b).range = ∅ := by
      ext x
      simp only [mem_inter_iff, mem_empty_iff_false, iff_false, not_and]
      intro h1 h2
      exact outside_fin h2 h1
    rw [this, measure_empty, mul_zero]
  | trapezoidal a b c d =>
    obtain ⟨h1, h2, h3, h4⟩ := hv
    obtain ⟨u, _, hr, _⟩ := C46_trapezoidal he h1 h2 h3 h4
    refine hr.null (null_of_density ((measurable_trapezoid a b c d).const_mul u) fun x hx => ?_)
    have hx := outside_fin hx
    rw [Textbook.trapezoid]
    by_cases h : x < a
    · rw [if_pos h, mul_zero]
    · have hd : ¬ x < d := fun h' => hx ⟨not_lt.1 h, h'.le⟩
      rw [if_neg h, if_neg (fun h' => hd (h'.trans_le (h2.trans h3))), if_neg (fun h' => hd (h'.trans_le h3)), if_neg hd,
        mul_zero]
  | cauchy g c =>
    exact (C46_cauchy he c hv).1.null (by rw [Kind.range, outside_line, measure_empty])
  | chiSquare df =>
    exact (C46_chiSquare he hlg hv).1.null (null_of_density (measurable_gammaPDFReal _ _) fun x hx =>
      if_neg (not_le.2 (outside_half0 hx)))
  | exponential l =>
    exact (C46_exponential he hv).1.null (null_of_density (measurable_gammaPDFReal _ _) fun x hx =>
      if_neg (not_le.2 (outside_half0 hx)))
  | gamma a b =>
    exact (C46_gamma he hlg hv.1 hv.2).1.null (null_of_density (measurable_gammaPDFReal _ _) fun x hx =>
      if_neg (not_le.2 (outside_half0 hx)))
  | beta a b =>
    refine (C46_beta he E.mpe hlg hv.1 hv.2).1.null (null_of_density (measurable_betaPDFReal _ _) fun x hx =>
      if_neg fun h => ?_)
    exact outside_fin (a := 0) (b := 1) hx ⟨h.1.le, h.2.le⟩
  | pareto a xmin =>
    exact (C46_pareto he hv.1 hv.2).1.null (null_of_density (measurable_paretoPDFReal _ _) fun x hx =>
      if_neg (not_le.2 (outside_half hx)))
  | levy c xmin =>
    exact (C46_levy he hv xmin).1.1.null (null_of_density (measurable_levy _ _) fun x hx =>
      if_neg (not_lt.2 (outside_half hx).le))
  | laplace l mu =>
    exact (C46_laplace he hv mu).1.1.null (by rw [Kind.range, outside_line, measure_empty])
  | studentT df =>
    exact (C46_studentT he hlg hv).1.1.null (by rw [Kind.range, outside_line, measure_empty])
  | semicircle R =>
    exact (C46_semicircle_partial he hv).1.1.null (null_of_density (measurable_semicircle _) fun x hx =>
      if_neg fun h => outside_fin hx (abs_le.1 h))
  | fDistr a b =>
    exact (C46_fDistr he hlg hv.1 hv.2).1.1.null (null_of_density (measurable_fisher _ _) fun x hx =>
      if_neg (not_lt.2 (outside_half0 hx).le))
  | weibull a b =>
    exact (C46_weibull he hv.1 hv.2).1.1.null (null_of_density (measurable_weibull _ _) fun x hx =>
      if_neg (not_lt.2 (outside_half0 hx).le))
  | gumbel mu sigma => exact absurd rfl (hg mu sigma)
  | frechet a s m =>
    have hm := hf a s m rfl
    exact (C46_frechet he hv.1 hv.2 m).1.1.null (null_of_density (measurable_frechet _ _ _) fun x hx =>
      if_neg (not_lt.2 ((outside_half0 hx).le.trans hm)))
  | logLogistic a b =>
    exact (C46_logLogistic he hv.1 hv.2).1.1.null (null_of_density (measurable_logLogistic _ _) fun x hx =>
      if_neg (not_lt.2 (outside_half0 hx).le))
  | mollifier e =>
    refine (C46_mollifier_partial he hv).1.null (null_of_density
      ((measurable_bump.comp (measurable_id.div_const _)).const_mul _) fun x hx => ?_)
    show mollifierConst / e * Textbook.bump (x / e) = 0
    have hv : 0 < e := hv
    rw [Textbook.bump, if_neg, mul_zero]
    rw [abs_div, abs_of_pos hv, div_lt_one hv]
    exact fun h => outside_fin hx ⟨(abs_lt.1 h).1.le, (abs_lt.1 h).2.le⟩

example : ∃ l, (Kind.weibull 2 3).build exactEnv = some l ∧ PF.law l (outside (Kind.weibull 2 3).range) = 0 :=
  C63_range_partial exactEnv (by norm_num [exactEnv]) (fun _ _ => rfl) _ ⟨by norm_num, by norm_num⟩ (by simp) (by simp)

/-- `GumbelDistr(0, 1)` has positive mass below 0, but its `range()` is `(0, inf)`. -/
theorem C63_violated_gumbel : ∃ l, (Kind.gumbel 0 1).build exactEnv = some l ∧
    0 < PF.law l (outside (Kind.gumbel 0 1).range) := by
  obtain ⟨⟨l, h1, _, _, h4⟩, hp, _⟩ := C46_gumbel_partial (eps := exactEnv.eps) (by norm_num [exactEnv]) 709.78 0 one_pos
  refine ⟨l, h1, ?_⟩
  have hout : outside (Kind.gumbel 0 1).range = Iio 0 := by
    ext x
    constructor
    · intro h; exact outside_half0 h
    · intro h h'
      exact absurd (EReal.coe_le_coe_iff.1 (show ((0:ℝ) : EReal) ≤ x from h'.1)) (not_le.2 h)
  have hs : Iio (0:ℝ) ∩ Ici (0 - 1 * 709.78) = Ici (0 - 1 * 709.78) \ Ici (0 - 1 * 0) := by
    ext x
    simp [and_comm]
  rw [h4, hout, Measure.restrict_apply measurableSet_Iio, hs,
    measure_sdiff (Ici_subset_Ici.2 (by norm_num)) measurableSet_Ici.nullMeasurableSet (measure_ne_top _ _),
    gumbel_tail 0 one_pos, gumbel_tail 0 one_pos, tsub_pos_iff_lt]
  have hM : exp (-exp 709.78) < exp (-exp 0) := by
    rw [exp_lt_exp, neg_lt_neg_iff, exp_lt_exp]; norm_num
  refine (ENNReal.ofReal_lt_ofReal_iff ?_).2 (by linarith)
  have : exp (-exp 0) < 1 := by rw [exp_lt_one_iff]; simp [exp_pos]
  linarith

/-- `FrechetDistr(alpha, s, m)` with `m < 0` has positive mass below 0, but its `range()` is `(0, inf)` whatever `m`. -/
theorem C63_violated_frechet {alpha s m : ℝ} (ha : 0 < alpha) (hs : 0 < s) (hm : m < 0) :
    ∃ l, (Kind.frechet alpha s m).build exactEnv = some l ∧ 0 < PF.law l (outside (Kind.frechet alpha s m).range) := by
  obtain ⟨l, h1, _, _, h4⟩ := (C46_frechet (eps := exactEnv.eps) (by norm_num [exactEnv]) ha hs m).1.1
  refine ⟨l, h1, ?_⟩
  rw [h4, pos_iff_ne_zero]
  intro h
  rw [Textbook.law, withDensity_apply_eq_zero (measurable_frechet alpha s m).ennreal_ofReal] at h
  have hsub : Ioo m 0 ⊆ {x | ENNReal.ofReal (Textbook.frechet alpha s m x) ≠ 0} ∩ outside (Kind.frechet alpha s m).range := by
    intro x hx
    have hxm : 0 < x - m := sub_pos.2 hx.1
    refine ⟨?_, fun h' => ?_⟩
    · rw [mem_ofPred_eq, Ne, ENNReal.ofReal_eq_zero, not_le, Textbook.frechet, if_pos hx.1]
      positivity
    · exact absurd (EReal.coe_le_coe_iff.1 (show ((0:ℝ) : EReal) ≤ x from h'.1)) (not_le.2 hx.2)
  have := measure_mono_null hsub h
  rw [Real.volume_Ioo, ENNReal.ofReal_eq_zero] at this
  linarith

end Pacal.Standard
