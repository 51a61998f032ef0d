import Verif.Standard.LemA

/-!
C46: standard distributions whose textbook law is defined in Mathlib.  `Rep eps r μ` says that the density was built, is well
formed, and that its law is `μ`.
-/

namespace Pacal.Standard
open MeasureTheory ProbabilityTheory Real
open scoped NNReal

/-- `NormalDistr(mu, sigma)` is the normal law with mean `mu` and variance `sigma²`. -/
theorem C46_normal {eps : ℝ} (he : 0 ≤ eps) (mu : ℝ) {sigma : ℝ} (hs : 0 < sigma) :
    Rep eps (normal eps mu sigma) (gaussianReal mu (sigma ^ 2).toNNReal) ∧
      ∀ x, normalPdf mu sigma x = gaussianPDFReal mu (sigma ^ 2).toNNReal x := by
  have hv : (sigma ^ 2).toNNReal ≠ 0 := by
    rw [Ne, Real.toNNReal_eq_zero, not_le]
    positivity
  have hpdf : ∀ x, normalPdf mu sigma x = gaussianPDFReal mu (sigma ^ 2).toNNReal x := by
    intro x
    have h1 : √(2 * π * sigma ^ 2) = sigma * √(2 * π) := by
      rw [Real.sqrt_mul' _ (sq_nonneg _), Real.sqrt_sq hs.le, mul_comm]
    simp only [normalPdf, gaussianPDFReal, Real.coe_toNNReal _ (sq_nonneg sigma), h1, one_div]
    congr 2
    field_simp
    ring
  refine ⟨?_, hpdf⟩
  rw [gaussianReal_of_var_ne_zero _ hv, normal, if_neg (not_le.2 hs)]
  refine (chain_line .none (by linarith) (Filter.Eventually.of_forall hpdf)).rep_density he
    (measurable_gaussianPDFReal _ _) (gaussianPDFReal_nonneg _ _) ?_ ?_
  · intro x hx
    rw [ext_line] at hx
    exact absurd (Set.mem_univ x) hx
  · rw [show (volume.withDensity fun x => ENNReal.ofReal (gaussianPDFReal mu (sigma ^ 2).toNNReal x)) =
      gaussianReal mu (sigma ^ 2).toNNReal from (gaussianReal_of_var_ne_zero _ hv).symm]
    infer_instance

/-- a nonpositive standard deviation is rejected -/
theorem C46_normal_rejects (eps mu : ℝ) {sigma : ℝ} (hs : sigma ≤ 0) : normal eps mu sigma = none := if_pos hs

/-- `UniformDistr(a, b)` is the uniform law on `[a, b]`. -/
theorem C46_uniform {eps : ℝ} (he : 0 ≤ eps) {a b : ℝ} (hab : a < b) :
    Rep eps (uniform eps a b) (ProbabilityTheory.cond volume (Set.Icc a b)) := by
  have hba : 0 < b - a := by linarith
  have hch : Chain (fun _ => 1 / (b - a)) (.fin a) (.fin b) [.const a b (1 / (b - a))] :=
    Chain.one (.const a b (1 / (b - a))) rfl (Ext.fin_lt_fin.2 hab) (Filter.Eventually.of_forall fun x _ _ => rfl)
  rw [uniform, if_neg hba.ne']
  have : IsProbabilityMeasure (ProbabilityTheory.cond volume (Set.Icc a b)) := by
    refine cond_isProbabilityMeasure_of_finite ?_ ?_ <;> rw [Real.volume_Icc] <;> simp [hab]
  refine hch.rep he measurable_const.aestronglyMeasurable (Filter.Eventually.of_forall fun _ => by positivity) ?_
  rw [ext_fin, withDensity_const, ProbabilityTheory.cond, Real.volume_Icc, restrict_Ico_eq_restrict_Icc, one_div,
    ENNReal.ofReal_inv_of_pos hba]

/-- `CauchyDistr(gamma, center)` is the Cauchy law. -/
theorem C46_cauchy {eps : ℝ} (he : 0 ≤ eps) {gamma : ℝ} (center : ℝ) (hg : 0 < gamma) :
    Rep eps (cauchy eps gamma center) (cauchyMeasure center gamma.toNNReal) ∧
      ∀ x, cauchyPdf gamma center x = cauchyPDFReal center gamma.toNNReal x := by
  have hg0 : gamma.toNNReal ≠ 0 := by
    rw [Ne, Real.toNNReal_eq_zero, not_le]
    exact hg
  have hpdf : ∀ x, cauchyPdf gamma center x = cauchyPDFReal center gamma.toNNReal x := by
    intro x
    simp only [cauchyPdf, cauchyPDFReal, Real.coe_toNNReal _ hg.le]
    field_simp
    ring
  refine ⟨?_, hpdf⟩
  rw [cauchyMeasure_of_scale_ne_zero _ hg0, cauchy]
  refine (chain_line .none (by linarith) (Filter.Eventually.of_forall hpdf)).rep_density he
    (measurable_cauchyPDFReal _ _) (fun x => (cauchyPDF_pos _ hg0 x).le) ?_ ?_
  · intro x hx
    rw [ext_line] at hx
    exact absurd (Set.mem_univ x) hx
  · refine ⟨?_⟩
    rw [withDensity_apply _ MeasurableSet.univ, setLIntegral_univ]
    exact (lintegral_cauchyPDF_eq_one center hg0).symm ▸ ENNReal.one_lt_top

/-- `ExponentialDistr(lmbda)` is the exponential law with rate `lmbda`. -/
theorem C46_exponential {eps : ℝ} (he : 0 ≤ eps) {lmbda : ℝ} (hl : 0 < lmbda) :
    Rep eps (exponential eps lmbda) (expMeasure lmbda) ∧ ∀ x, exponentialPdf lmbda x = exponentialPDFReal lmbda x := by
  have hpdf : ∀ x, exponentialPdf lmbda x = exponentialPDFReal lmbda x := by
    intro x
    rw [exponentialPdf, exponentialPDFReal, gammaPDFReal]
    by_cases h : x < 0
    · rw [if_pos h, if_neg (not_le.2 h)]
    · rw [if_neg h, if_pos (not_lt.1 h)]
      simp
  refine ⟨?_, hpdf⟩
  obtain ⟨h0, hf⟩ := gammaPdf_chain_facts one_pos hl
  exact (chain_half .none one_pos (Filter.Eventually.of_forall fun x _ => hpdf x)).rep_density he
    (measurable_gammaPDFReal _ _) (gammaPDFReal_nonneg one_pos hl) h0 hf

/-- `GammaDistr(k, theta)` is the gamma law with shape `k` and scale `theta`; its density is the textbook density at every
point different from 0. -/
theorem C46_gamma {eps : ℝ} (he : 0 ≤ eps) {lg : ℝ → ℝ} (hlg : ∀ x, 0 < x → lg x = log (Gamma x)) {k theta : ℝ}
    (hk : 0 < k) (ht : 0 < theta) :
    Rep eps (gamma eps lg k theta) (gammaMeasure k (1 / theta)) ∧
      ∀ x, x ≠ 0 → gammaPdf lg k theta x = Flt.real (gammaPDFReal k (1 / theta) x) := by
  have hr : 0 < 1 / theta := by positivity
  have hpdf : ∀ x, x ≠ 0 → gammaPdf lg k theta x = Flt.real (gammaPDFReal k (1 / theta) x) := by
    intro x hx
    rw [gammaPdf]
    rcases lt_or_gt_of_ne hx with h | h
    · rw [if_pos h, gammaPDFReal, if_neg (not_le.2 h)]
    · rw [if_neg (not_lt.2 h.le), if_neg hx, gamma_formula hlg hk ht h]
  refine ⟨?_, hpdf⟩
  obtain ⟨h0, hf⟩ := gammaPdf_chain_facts hk hr
  have hae : ∀ᵐ x, 0 ≤ x → realPart (gammaPdf lg k theta) x = gammaPDFReal k (1 / theta) x := by
    filter_upwards [ae_ne 0] with x hx _
    rw [realPart, hpdf x hx]
    rfl
  have key : ∀ {l}, Chain (gammaPDFReal k (1 / theta)) (.fin 0) .pinf l →
      Rep eps (PF.addAll eps [] l) (gammaMeasure k (1 / theta)) := fun h =>
    h.rep_density he (measurable_gammaPDFReal _ _) (gammaPDFReal_nonneg hk hr) h0 hf
  rw [gamma, if_pos ⟨hk, ht⟩]
  dsimp only
  split_ifs with h1 h2
  · exact key (chain_half .left one_pos hae)
  · exact key (chain_half .none one_pos hae)
  · have hm : 0 < (k - 1) * theta := mul_pos (by
      rcases lt_or_gt_of_ne h2 with h | h
      · exact absurd h h1
      · linarith) ht
    exact key (chain_half4 .none .none .none (by linarith) (by linarith) (by linarith) hae)

/-- nonpositive parameters are rejected -/
theorem C46_gamma_rejects (eps : ℝ) (lg : ℝ → ℝ) {k theta : ℝ} (h : k ≤ 0 ∨ theta ≤ 0) : gamma eps lg k theta = none := by
  rw [gamma, if_neg]
  rintro ⟨h1, h2⟩
  rcases h with h | h <;> linarith

end Pacal.Standard
