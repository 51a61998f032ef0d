import Verif.Standard.LemB
import Verif.Standard.PropsA

/-!
C46: chi-square, beta and Pareto distributions, and the values of the densities at 0.
-/

namespace Pacal.Standard
open MeasureTheory ProbabilityTheory Real Filter Topology

/-- For `df ≥ 1`, `ChiSquareDistr(df)` is the chi-square law, the gamma law with shape `df/2` and scale 2. -/
theorem C46_chiSquare {eps : ℝ} (he : 0 ≤ eps) {lg : ℝ → ℝ} (hlg : ∀ x, 0 < x → lg x = log (Gamma x)) {df : ℝ}
    (hdf : 1 ≤ df) :
    Rep eps (chiSquare eps lg df) (gammaMeasure (df / 2) (1 / 2)) ∧
      ∀ x, x ≠ 0 → chiSquarePdf lg df x = Flt.real (gammaPDFReal (df / 2) (1 / 2) x) := by
  have hk : 0 < df / 2 := by linarith
  have hpdf : ∀ x, x ≠ 0 → chiSquarePdf lg df x = Flt.real (gammaPDFReal (df / 2) (1 / 2) x) := by
    intro x hx
    rw [chiSquarePdf]
    rcases lt_or_gt_of_ne hx with h | h
    · rw [if_pos h, gammaPDFReal, if_neg (not_le.2 h)]
    · rw [if_neg (not_lt.2 h.le), if_neg hx, chiSquare_formula, gamma_formula hlg hk two_pos h]
  refine ⟨?_, hpdf⟩
  obtain ⟨h0, hf⟩ := gammaPdf_chain_facts hk (one_half_pos (α := ℝ))
  have hae : ∀ᵐ x, 0 ≤ x → realPart (chiSquarePdf lg df) x = gammaPDFReal (df / 2) (1 / 2) x := by
    filter_upwards [ae_ne 0] with x hx _
    rw [realPart, hpdf x hx]
    rfl
  have key : ∀ {l}, Chain (gammaPDFReal (df / 2) (1 / 2)) (.fin 0) .pinf l →
      Rep eps (PF.addAll eps [] l) (gammaMeasure (df / 2) (1 / 2)) := fun h =>
    h.rep_density he (measurable_gammaPDFReal _ _) (gammaPDFReal_nonneg hk one_half_pos) h0 hf
  rw [chiSquare, if_pos (by linarith)]
  dsimp only
  split_ifs with h1 h2
  · rw [ofFun_four _ _ (by linarith)]
    exact key (chain_half3 _ .none (by linarith) (by linarith) hae)
  · rw [ofFun_four _ _ (by norm_num; linarith)]
    exact key (chain_half3 _ .none (by norm_num; linarith) (by norm_num; linarith) hae)
  · exact absurd ⟨hdf, le_of_not_gt h2⟩ h1

/-- For `df < 1`, a valid number of degrees of freedom accepted by the constructor, `ChiSquareDistr(df)` has no density at
all (only a message is printed). -/
theorem C46_violated_chiSquare_small_df (eps : ℝ) (lg : ℝ → ℝ) {df : ℝ} (h0 : 0 < df) (h1 : df < 1) :
    chiSquare eps lg df = none := by
  rw [chiSquare, if_pos h0]
  dsimp only
  rw [if_neg (fun h => absurd h.1 (not_le.2 h1)), if_neg (by linarith)]

/-- `BetaDistr(alpha, beta)` is the beta law; its density is the textbook density everywhere except at 0 and 1. -/
theorem C46_beta {eps : ℝ} (he : 0 ≤ eps) (mpe : ℝ) {lg : ℝ → ℝ} (hlg : ∀ x, 0 < x → lg x = log (Gamma x))
    {alpha beta : ℝ} (ha : 0 < alpha) (hb : 0 < beta) :
    Rep eps (Standard.beta eps mpe lg alpha beta) (betaMeasure alpha beta) ∧
      ∀ x, x ≠ 0 → x ≠ 1 → betaPdf lg alpha beta x = Flt.real (betaPDFReal alpha beta x) := by
  have hpdf : ∀ x, x ≠ 0 → x ≠ 1 → betaPdf lg alpha beta x = Flt.real (betaPDFReal alpha beta x) := by
    intro x h0 h1
    by_cases h : x < 0 ∨ x > 1
    · rw [betaPdf, if_pos h, betaPDFReal, if_neg]
      rintro ⟨h2, h3⟩
      rcases h with h | h <;> linarith
    · push Not at h
      exact beta_formula hlg ha hb (lt_of_le_of_ne h.1 (Ne.symm h0)) (lt_of_le_of_ne h.2 h1)
  refine ⟨?_, hpdf⟩
  have hae : ∀ᵐ x, 0 ≤ x → x < 1 → realPart (betaPdf lg alpha beta) x = betaPDFReal alpha beta x := by
    filter_upwards [ae_ne 0] with x hx _ h1
    rw [realPart, hpdf x hx h1.ne]
    rfl
  have hfin : IsFiniteMeasure (volume.withDensity fun x => ENNReal.ofReal (betaPDFReal alpha beta x)) := by
    have := isProbabilityMeasureBeta ha hb
    exact inferInstanceAs (IsFiniteMeasure (betaMeasure alpha beta))
  have hnn : ∀ x, 0 ≤ betaPDFReal alpha beta x := by
    intro x
    by_cases h : 0 < x ∧ x < 1
    · exact (betaPDFReal_pos h.1 h.2 ha hb).le
    · rw [betaPDFReal, if_neg h]
  have key : ∀ {l}, Chain (betaPDFReal alpha beta) (.fin 0) (.fin 1) l →
      Rep eps (PF.addAll eps [] l) (betaMeasure alpha beta) := by
    intro l h
    refine h.rep_density he (measurable_betaPDFReal _ _) hnn ?_ hfin
    intro x hx
    rw [ext_fin] at hx
    exact if_neg fun h => hx ⟨h.1.le, h.2⟩
  rw [Standard.beta]
  split_ifs
  all_goals exact key (chain_fin2 _ _ (by norm_num) (by norm_num) hae)

/-- With `alpha = 1` the density at 0 is not a number (`log(0) * 0`), and with `beta = 1` neither is the density at 1;
`BetaDistr(1, 1)` is the uniform distribution. -/
theorem C46_violated_beta_end_points (lg : ℝ → ℝ) (beta : ℝ) :
    betaPdf lg 1 beta 0 = none ∧ betaPdf lg beta 1 1 = none := by
  constructor <;> simp [betaPdf, Flt.log, Flt.mul, Flt.real, Flt.add, Flt.exp]

/-- `ParetoDistr(alpha, xmin)` is the Pareto law. -/
theorem C46_pareto {eps : ℝ} (he : 0 ≤ eps) {alpha xmin : ℝ} (ha : 0 < alpha) (hx : 0 < xmin) :
    Rep eps (pareto eps alpha xmin) (paretoMeasure xmin alpha) ∧
      ∀ x, paretoPdf alpha xmin x = paretoPDFReal xmin alpha x := by
  have hpdf : ∀ x, paretoPdf alpha xmin x = paretoPDFReal xmin alpha x := by
    intro x
    rw [paretoPdf, paretoPDFReal]
    by_cases h : x < xmin
    · rw [if_pos h, if_neg (not_le.2 h)]
    · rw [if_neg h, if_pos (not_lt.1 h), rpow_neg (hx.le.trans (not_lt.1 h)), div_eq_mul_inv]
  refine ⟨?_, hpdf⟩
  rw [pareto, if_pos ⟨ha, hx⟩]
  refine (chain_half .none (by linarith) (Eventually.of_forall fun x _ => hpdf x)).rep_density he
    (measurable_paretoPDFReal _ _) (paretoPDFReal_nonneg hx.le ha.le) ?_ ?_
  · intro x h
    rw [ext_half] at h
    exact if_neg h
  · have := isProbabilityMeasure_paretoMeasure hx ha
    exact inferInstanceAs (IsFiniteMeasure (paretoMeasure xmin alpha))

/-! ### Values at 0 -/

/-- The value of the gamma density at 0 is the limit of the textbook density from the right. -/
theorem C46_gamma_at_zero (lg : ℝ → ℝ) {k theta : ℝ} (hk : 0 < k) (ht : 0 < theta) :
    ∃ v, gammaPdf lg k theta 0 = some v ∧
      Tendsto (fun x : ℝ => (gammaPDFReal k (1 / theta) x : EReal)) (𝓝[>] 0) (𝓝 v) := by
  have hg : Tendsto (fun x : ℝ => exp (-(1 / theta * x))) (𝓝[>] 0) (𝓝 1) := by
    have : Continuous fun x : ℝ => exp (-(1 / theta * x)) := by fun_prop
    have := this.tendsto 0
    simp only [mul_zero, neg_zero, exp_zero] at this
    exact this.mono_left nhdsWithin_le_nhds
  have hc : 0 < (1 / theta) ^ k / Gamma k := div_pos (rpow_pos_of_pos (by positivity) _) (Gamma_pos_of_pos hk)
  have h := tendsto_zero_density (a := k) hc hg
  refine ⟨_, ?_, h.congr' ?_⟩
  · rw [gammaPdf, if_neg (lt_irrefl _), if_pos rfl, gammaAt0]
    split_ifs with h1 h2
    · rfl
    · subst h2
      simp [Flt.real]
    · simp [Flt.real]
  · filter_upwards [self_mem_nhdsWithin] with x hx
    rw [gammaPDFReal, if_pos (le_of_lt hx)]

/-- For `df ≥ 2` and for `df = 1` the value of the chi-square density at 0 is the limit of the textbook density. -/
theorem C46_chiSquare_at_zero_partial (lg : ℝ → ℝ) {df : ℝ} (h : 2 ≤ df ∨ df = 1) :
    ∃ v, chiSquarePdf lg df 0 = some v ∧
      Tendsto (fun x : ℝ => (gammaPDFReal (df / 2) (1 / 2) x : EReal)) (𝓝[>] 0) (𝓝 v) := by
  have hk : 0 < df / 2 := by rcases h with h | h <;> linarith
  obtain ⟨v, hv, hlim⟩ := C46_gamma_at_zero lg hk two_pos
  refine ⟨v, ?_, hlim⟩
  rw [← hv, chiSquarePdf, gammaPdf, if_neg (lt_irrefl _), if_pos rfl, if_neg (lt_irrefl _), if_pos rfl, chiSquareAt0,
    gammaAt0]
  rcases h with h | h
  · rw [if_neg (show ¬ df = 1 by intro h; linarith), if_neg (show ¬ df / 2 < 1 by linarith)]
    by_cases h2 : df = 2
    · subst h2; norm_num
    · rw [if_neg h2, if_neg (show ¬ df / 2 = 1 from fun h3 => h2 (by linarith))]
  · subst h; norm_num

/-- For `1 < df < 2` the chi-square density tends to infinity at 0 but `pdf(0)` returns 0. -/
theorem C46_violated_chiSquare_at_zero (lg : ℝ → ℝ) {df : ℝ} (h1 : 1 < df) (h2 : df < 2) :
    chiSquarePdf lg df 0 = some 0 ∧
      Tendsto (fun x : ℝ => (gammaPDFReal (df / 2) (1 / 2) x : EReal)) (𝓝[>] 0) (𝓝 ⊤) := by
  obtain ⟨v, hv, hlim⟩ := C46_gamma_at_zero lg (show 0 < df / 2 by linarith) two_pos
  have : v = ⊤ := by
    rw [gammaPdf, if_neg (lt_irrefl _), if_pos rfl, gammaAt0, if_pos (by linarith)] at hv
    exact (Option.some.inj hv).symm
  rw [this] at hlim
  refine ⟨?_, hlim⟩
  rw [chiSquarePdf, if_neg (lt_irrefl _), if_pos rfl, chiSquareAt0, if_neg (by linarith), if_neg (by linarith)]
  rfl

/-- On an array of integers the exponential density is truncated to integers: `ExponentialDistr(0.5).pdf` of the array
`[0, 1]` is `[0, 0]`, while the density is positive there. -/
theorem C46_violated_integer_array :
    exponentialPdfInts 0.5 [0, 1] = [0, 0] ∧ 0 < exponentialPdf 0.5 0 ∧ 0 < exponentialPdf 0.5 1 := by
  refine ⟨?_, ?_, ?_⟩
  · have h1 : exp (-0.5 * 1 : ℝ) < 1 := by rw [Real.exp_lt_one_iff]; norm_num
    have h2 := exp_pos (-0.5 * 1 : ℝ)
    have e0 : ⌊(0.5 : ℝ) * exp (-0.5 * ((0 : ℤ) : ℝ))⌋ = 0 := by
      rw [Int.floor_eq_iff]; norm_num
    have e1 : ⌊(0.5 : ℝ) * exp (-0.5 * ((1 : ℤ) : ℝ))⌋ = 0 := by
      rw [Int.floor_eq_iff, Int.cast_one]
      constructor
      · push_cast; positivity
      · push_cast; linarith
    rw [exponentialPdfInts, List.map_cons, List.map_cons, e0, e1]
    rfl
  · rw [exponentialPdf, if_neg (lt_irrefl _)]; positivity
  · rw [exponentialPdf, if_neg (by norm_num)]; positivity

end Pacal.Standard
