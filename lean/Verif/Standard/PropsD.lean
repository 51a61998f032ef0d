import Verif.Standard.LemD
import Verif.Standard.PropsC

/-!
C46: Fréchet, log-logistic, Gumbel, mollifier and trapezoidal distributions.
-/

namespace Pacal.Standard
open MeasureTheory Real Filter Topology

/-! ### Fréchet -/

/-- `FrechetDistr(alpha, s, m)` is the Fréchet law. -/
theorem C46_frechet {eps : ℝ} (he : 0 ≤ eps) {alpha s : ℝ} (ha : 0 < alpha) (hs : 0 < s) (m : ℝ) :
    (Rep eps (frechet eps alpha s m) (Textbook.law (Textbook.frechet alpha s m)) ∧
      IsProbabilityMeasure (Textbook.law (Textbook.frechet alpha s m))) ∧
    ∀ x, frechetPdf alpha s m x = Textbook.frechet alpha s m x := by
  have hpdf : ∀ x, frechetPdf alpha s m x = Textbook.frechet alpha s m x := by
    intro x
    rw [frechetPdf, Textbook.frechet]
    by_cases h : m < x
    · have ht : 0 < (x - m) / s := div_pos (sub_pos.2 h) hs
      rw [if_neg (not_le.2 ht), if_pos h, rpow_def_of_pos (y := -1 - alpha) ht, sub_eq_add_neg, exp_add, mul_assoc]
      congr 3
      ring
    · rw [if_pos (div_nonpos_of_nonpos_of_nonneg (sub_nonpos.2 (not_lt.1 h)) hs.le), if_neg h]
  refine ⟨?_, hpdf⟩
  obtain ⟨h1, h2⟩ := frechet_breaks m ha hs
  rw [frechet, if_pos ⟨ha, hs⟩]
  refine rep_textbook (chain_half3 .none .none h1 h2 (Eventually.of_forall fun x _ => hpdf x)) he (measurable_frechet _ _ _)
    (frechet_nonneg ha hs m) ?_ (Textbook.integral_frechet m ha hs)
  intro x hx
  rw [ext_half] at hx
  exact if_neg fun h => hx h.le

example : Rep 1e-14 (frechet 1e-14 2 3 (-1)) (Textbook.law (Textbook.frechet 2 3 (-1))) :=
  (C46_frechet (by norm_num) (by norm_num) (by norm_num) _).1.1

/-! ### Log-logistic -/

/-- `LogLogisticDistr(k, s)` is the log-logistic law. -/
theorem C46_logLogistic {eps : ℝ} (he : 0 ≤ eps) {k s : ℝ} (hk : 0 < k) (hs : 0 < s) :
    (Rep eps (logLogistic eps k s) (Textbook.law (Textbook.logLogistic k s)) ∧
      IsProbabilityMeasure (Textbook.law (Textbook.logLogistic k s))) ∧
    ∀ x, x ≠ 0 → logLogisticPdf k s x = Flt.real (Textbook.logLogistic k s x) := by
  have hpdf : ∀ x, x ≠ 0 → logLogisticPdf k s x = Flt.real (Textbook.logLogistic k s x) := by
    intro x hx
    rcases lt_or_gt_of_ne hx with h | h
    · rw [logLogisticPdf, if_neg (not_le.2 h), Textbook.logLogistic, if_neg (not_lt.2 h.le)]
    · exact logLogistic_formula hk hs h
  refine ⟨?_, hpdf⟩
  have hae : ∀ᵐ x, 0 ≤ x → realPart (logLogisticPdf k s) x = Textbook.logLogistic k s x := by
    filter_upwards [ae_ne 0] with x hx _
    rw [realPart, hpdf x hx]
    rfl
  have key : ∀ {l}, Chain (Textbook.logLogistic k s) (.fin 0) .pinf l →
      Rep eps (PF.addAll eps [] l) (Textbook.law (Textbook.logLogistic k s)) ∧
      IsProbabilityMeasure (Textbook.law (Textbook.logLogistic k s)) := by
    intro l h
    refine rep_textbook h he (measurable_logLogistic _ _) (logLogistic_nonneg hk hs) ?_ (Textbook.integral_logLogistic hk hs)
    intro x hx
    rw [ext_half] at hx
    exact if_neg fun h => hx h.le
  rw [logLogistic, if_neg (not_le.2 hk), if_neg (not_le.2 hs), logLogisticBreaks]
  dsimp only
  by_cases h1 : 1 < k
  · have hk2 : 0 < k ^ 2 - 1 := by nlinarith
    have hp2 : 0 < k * √(3 * (k ^ 2 - 1)) := mul_pos hk (sqrt_pos.2 (by linarith))
    have hp3 : 0 < (k + 1) * (k + 2) := by positivity
    have hb : 0 < (2 * (k ^ 2 - 1) + k * √(3 * (k ^ 2 - 1))) / ((k + 1) * (k + 2)) := by positivity
    by_cases h2 : 2 < k
    · have hlt : k * √(3 * (k ^ 2 - 1)) < 2 * (k ^ 2 - 1) := by
        rw [show k * √(3 * (k ^ 2 - 1)) = √(k ^ 2 * (3 * (k ^ 2 - 1))) by
          rw [sqrt_mul (sq_nonneg k), sqrt_sq hk.le], sqrt_lt' (by linarith)]
        have : 4 < k ^ 2 := by nlinarith
        nlinarith
      have hc : 0 < (2 * (k ^ 2 - 1) - k * √(3 * (k ^ 2 - 1))) / ((k + 1) * (k + 2)) :=
        div_pos (by linarith) hp3
      have hcb : (2 * (k ^ 2 - 1) - k * √(3 * (k ^ 2 - 1))) / ((k + 1) * (k + 2)) <
          (2 * (k ^ 2 - 1) + k * √(3 * (k ^ 2 - 1))) / ((k + 1) * (k + 2)) := by
        gcongr
        linarith
      have h3 := rpow_lt_rpow hc.le hcb (show 0 < 1 / k by positivity)
      have h4 : 0 < s * ((2 * (k ^ 2 - 1) - k * √(3 * (k ^ 2 - 1))) / ((k + 1) * (k + 2))) ^ (1 / k) := by positivity
      rw [if_pos h1, if_pos h2]
      dsimp only [List.map, List.append, List.cons_append, List.nil_append]
      rw [ofFun_four _ _ h4]
      exact key (chain_half3 _ .none h4 (by gcongr) hae)
    · have h4 : 0 < s * ((2 * (k ^ 2 - 1) + k * √(3 * (k ^ 2 - 1))) / ((k + 1) * (k + 2))) ^ (1 / k) := by positivity
      rw [if_pos h1, if_neg h2]
      dsimp only [List.map, List.append, List.cons_append, List.nil_append]
      rw [ofFun_three _ _ h4]
      exact key (chain_half _ h4 hae)
  · rw [if_neg h1]
    dsimp only [List.map, List.append, List.cons_append, List.nil_append]
    rw [ofFun_three _ _ one_pos]
    exact key (chain_half _ one_pos hae)

example : Rep 1e-14 (logLogistic 1e-14 3 2) (Textbook.law (Textbook.logLogistic 3 2)) :=
  (C46_logLogistic (by norm_num) (by norm_num) (by norm_num)).1.1

/-- For `k ≠ 1` the value of the log-logistic density at 0 is the limit of the textbook density.  Missing: `k = 1`, where
it is not (`C46_violated_logLogistic_at_zero`). -/
theorem C46_logLogistic_at_zero_partial {k s : ℝ} (hk : 0 < k) (hs : 0 < s) (h1 : k ≠ 1) :
    ∃ v, logLogisticPdf k s 0 = some v ∧
      Tendsto (fun x : ℝ => (Textbook.logLogistic k s x : EReal)) (𝓝[>] 0) (𝓝 v) := by
  have hg : Tendsto (fun x : ℝ => 1 / (1 + (x / s) ^ k) ^ 2) (𝓝[>] 0) (𝓝 1) := by
    have : ContinuousAt (fun x : ℝ => 1 / (1 + (x / s) ^ k) ^ 2) 0 := by
      refine ContinuousAt.div continuousAt_const
        ((continuousAt_const.add (ContinuousAt.rpow_const (by fun_prop) (Or.inr hk.le))).pow 2) ?_
      simp [zero_rpow hk.ne']
    have := this.tendsto
    simp only [zero_div, zero_rpow hk.ne', add_zero, one_pow, div_one] at this
    exact this.mono_left nhdsWithin_le_nhds
  have hc : 0 < k / s * (s ^ (k - 1))⁻¹ := by positivity
  have ht := tendsto_zero_density (a := k) hc hg
  refine ⟨_, ?_, ht.congr' ?_⟩
  · have hl : Flt.log 0 = some ⊥ := by simp [Flt.log]
    have hla : logaddexp (k * log s) (some ⊥) = Flt.real (k * log s) := by simp [logaddexp]
    rw [logLogisticPdf, if_pos le_rfl, logLogisticLogPdf]
    rw [hl, Flt.mul_bot_pos hk, hla, Flt.mul_real, Flt.add_real]
    by_cases h : k < 1
    · rw [Flt.mul_bot_neg (by linarith), if_pos h, Flt.add_top, Flt.top_add]
      simp [Flt.exp]
    · have hk1 : 0 < k - 1 := by
        rcases lt_or_gt_of_ne h1 with h' | h'
        · exact absurd h' h
        · linarith
      rw [Flt.mul_bot_pos hk1, if_neg h, if_neg h1, Flt.add_bot, Flt.bot_add]
      simp [Flt.exp]
  · filter_upwards [self_mem_nhdsWithin] with x hx
    have hx : 0 < x := hx
    rw [Textbook.logLogistic, if_pos hx, div_rpow hx.le hs.le (k - 1)]
    congr 1
    ring

/-- With shape 1 the density at 0 is not a number (`0 * -inf`), whatever the scale. -/
theorem C46_violated_logLogistic_at_zero (s : ℝ) : logLogisticPdf 1 s 0 = none := by
  rw [logLogisticPdf, if_pos le_rfl, logLogisticLogPdf]
  simp [Flt.log, Flt.mul, Flt.real, Flt.add, Flt.exp]

/-! ### Gumbel -/

/-- `GumbelDistr(mu, sigma)` is the part of the Gumbel law on `[mu - M*sigma, ∞)`, where `M` is `_MAX_EXP_ARG`; the
missing mass is `exp(-exp(M))`.  Missing to the full statement: this mass (`C46_violated_gumbel`), for the value
709.78 used a number with `1e307` zeros after the decimal point. -/
theorem C46_gumbel_partial {eps : ℝ} (he : 0 ≤ eps) (M mu : ℝ) {sigma : ℝ} (hs : 0 < sigma) :
    Rep eps (gumbel eps M mu sigma) ((Textbook.law (Textbook.gumbel mu sigma)).restrict (Set.Ici (mu - sigma * M))) ∧
    IsProbabilityMeasure (Textbook.law (Textbook.gumbel mu sigma)) ∧
    (Textbook.law (Textbook.gumbel mu sigma)) (Set.Ici (mu - sigma * M))ᶜ = ENNReal.ofReal (exp (-exp M)) ∧
    ∀ x, mu - sigma * M ≤ x → gumbelPdf M mu sigma x = Textbook.gumbel mu sigma x := by
  have hcond : ∀ x, 1 / sigma * (mu - x) > M ↔ x < mu - sigma * M := by
    intro x
    rw [gt_iff_lt, one_div_mul_eq_div, lt_div_iff₀ hs]
    constructor <;> intro h <;> linarith
  have hpdf : ∀ x, mu - sigma * M ≤ x → gumbelPdf M mu sigma x = Textbook.gumbel mu sigma x := by
    intro x hx
    rw [gumbelPdf, Textbook.gumbel, if_neg (fun h => absurd ((hcond x).1 h) (not_lt.2 hx)),
      show 1 / sigma * (mu - x) = -((x - mu) / sigma) by ring, neg_add, sub_eq_add_neg]
  have hfun : ∀ x, gumbelPdf M mu sigma x = (Set.Ici (mu - sigma * M)).indicator (Textbook.gumbel mu sigma) x := by
    intro x
    by_cases hx : mu - sigma * M ≤ x
    · rw [Set.indicator_of_mem (show x ∈ Set.Ici _ from hx), hpdf x hx]
    · rw [Set.indicator_of_notMem (show x ∉ Set.Ici _ from hx), gumbelPdf, if_pos ((hcond x).2 (not_le.1 hx))]
  have hprob := gumbel_prob mu hs
  have hlaw : (Textbook.law (Textbook.gumbel mu sigma)).restrict (Set.Ici (mu - sigma * M)) =
      Textbook.law ((Set.Ici (mu - sigma * M)).indicator (Textbook.gumbel mu sigma)) := by
    rw [Textbook.law, Textbook.law, restrict_withDensity measurableSet_Ici, ← withDensity_indicator measurableSet_Ici]
    congr 1
    ext x
    by_cases hx : x ∈ Set.Ici (mu - sigma * M)
    · rw [Set.indicator_of_mem hx, Set.indicator_of_mem hx]
    · rw [Set.indicator_of_notMem hx, Set.indicator_of_notMem hx, ENNReal.ofReal_zero]
  have hlog : 0 < log ((3 + √5) / 2) := log_pos (by linarith [sqrt_nonneg (5:ℝ)])
  refine ⟨?_, hprob, ?_, hpdf⟩
  · have hfin : IsFiniteMeasure (Textbook.law ((Set.Ici (mu - sigma * M)).indicator (Textbook.gumbel mu sigma))) := by
      rw [← hlaw]; infer_instance
    rw [hlaw, gumbel, if_pos hs]
    have hlt := mul_pos hs hlog
    refine (chain_line .none (by linarith) (Eventually.of_forall hfun)).rep_density he
      ((measurable_gumbel _ _).indicator measurableSet_Ici)
      (fun x => Set.indicator_nonneg (fun x _ => gumbel_nonneg hs mu x) x) ?_ hfin
    intro x hx
    rw [ext_line] at hx
    exact absurd (Set.mem_univ x) hx
  · rw [prob_compl_eq_one_sub measurableSet_Ici, gumbel_tail mu hs M, ← ENNReal.ofReal_one,
      ← ENNReal.ofReal_sub _ (by
        have : exp (-exp M) ≤ 1 := by rw [exp_le_one_iff]; simp [exp_nonneg]
        linarith)]
    congr 1
    ring

/-- Left of `mu - M*sigma` the computed Gumbel density is exactly 0 while the Gumbel density is positive. -/
theorem C46_violated_gumbel {M mu sigma x : ℝ} (hs : 0 < sigma) (hx : x < mu - sigma * M) :
    gumbelPdf M mu sigma x = 0 ∧ 0 < Textbook.gumbel mu sigma x := by
  constructor
  · rw [gumbelPdf, if_pos]
    rw [gt_iff_lt, one_div_mul_eq_div, lt_div_iff₀ hs]
    linarith
  · rw [Textbook.gumbel]; positivity

example : Rep 1e-14 (gumbel 1e-14 709.78 1 2)
    ((Textbook.law (Textbook.gumbel 1 2)).restrict (Set.Ici (1 - 2 * 709.78))) :=
  (C46_gumbel_partial (by norm_num) 709.78 1 (by norm_num)).1

/-! ### Mollifier -/

/-- `MollifierDistr(epsilon)` is the scaled bump function with the built-in constant: its density is
`c/epsilon * bump(x/epsilon)`, and its total mass is `c` times the integral of the bump function, for every `epsilon`.
Missing: that this integral is `1/c`, a numerical fact about the constant. -/
theorem C46_mollifier_partial {eps : ℝ} (he : 0 ≤ eps) {epsilon : ℝ} (hp : 0 < epsilon) :
    Rep eps (mollifier eps epsilon)
      (Textbook.law fun x => mollifierConst / epsilon * Textbook.bump (x / epsilon)) ∧
    (Textbook.law fun x => mollifierConst / epsilon * Textbook.bump (x / epsilon)) Set.univ =
      ENNReal.ofReal (mollifierConst * ∫ t, Textbook.bump t) ∧
    ∀ x, mollifierPdf epsilon x = mollifierConst / epsilon * Textbook.bump (x / epsilon) := by
  have hc : 0 < mollifierConst := by norm_num [mollifierConst]
  have habs : ∀ x, |x / epsilon| < 1 ↔ |x| < epsilon := by
    intro x
    rw [abs_div, abs_of_pos hp, div_lt_one hp]
  have hpdf : ∀ x, mollifierPdf epsilon x = mollifierConst / epsilon * Textbook.bump (x / epsilon) := by
    intro x
    rw [mollifierPdf, Textbook.bump]
    by_cases h : |x| < epsilon
    · rw [if_neg (not_le.2 h), if_pos ((habs x).2 h), sq]
    · rw [if_pos (not_lt.1 h), if_neg (fun h' => h ((habs x).1 h')), mul_zero]
  have hnn : ∀ x, 0 ≤ mollifierConst / epsilon * Textbook.bump (x / epsilon) := fun x =>
    mul_nonneg (by positivity) (bump_nonneg _)
  have hint : Integrable fun x => mollifierConst / epsilon * Textbook.bump (x / epsilon) :=
    (integrable_bump.comp_div hp.ne').const_mul _
  have hmass : (Textbook.law fun x => mollifierConst / epsilon * Textbook.bump (x / epsilon)) Set.univ =
      ENNReal.ofReal (mollifierConst * ∫ t, Textbook.bump t) := by
    rw [Textbook.law, withDensity_apply _ MeasurableSet.univ, setLIntegral_univ,
      ← ofReal_integral_eq_lintegral_ofReal hint (Eventually.of_forall hnn), integral_const_mul,
      Measure.integral_comp_div, abs_of_pos hp, smul_eq_mul]
    congr 1
    field_simp
  refine ⟨?_, hmass, hpdf⟩
  have hfin : IsFiniteMeasure (Textbook.law fun x => mollifierConst / epsilon * Textbook.bump (x / epsilon)) :=
    ⟨by rw [hmass]; exact ENNReal.ofReal_lt_top⟩
  have h3 : 0 < (3 : ℝ) ^ (-0.25 : ℝ) := by positivity
  have h3' : (3 : ℝ) ^ (-0.25 : ℝ) < 1 := rpow_lt_one_of_one_lt_of_neg (by norm_num) (by norm_num)
  have h4 := mul_pos h3 hp
  have h5 : (3 : ℝ) ^ (-0.25 : ℝ) * epsilon < epsilon := by nlinarith
  rw [mollifier, if_pos hp]
  refine (chain_fin3 .none .none .none (by linarith) (by linarith) h5
    (Eventually.of_forall fun x _ _ => hpdf x)).rep_density he
    ((measurable_bump.comp (measurable_id.div_const _)).const_mul _) hnn ?_ hfin
  intro x hx
  rw [ext_fin] at hx
  have : ¬ |x / epsilon| < 1 := fun h => hx ⟨(abs_lt.1 ((habs x).1 h)).1.le, (abs_lt.1 ((habs x).1 h)).2⟩
  show mollifierConst / epsilon * Textbook.bump (x / epsilon) = 0
  rw [Textbook.bump, if_neg this, mul_zero]

end Pacal.Standard
