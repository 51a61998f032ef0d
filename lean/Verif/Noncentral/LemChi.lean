import Verif.Noncentral.LemMix

/-!
Lemmas for `Verif.Noncentral.Props`: the noncentral chi-square law.
-/

namespace Pacal.Noncentral
open MeasureTheory ProbabilityTheory Standard Identity Set Real

theorem gamma_prob (df : ℝ) (hdf : 0 < df) (j : ℕ) : IsProbabilityMeasure (gammaMeasure ((df + 2 * j) / 2) (1 / 2)) :=
  isProbabilityMeasure_gammaMeasure (by positivity) (by norm_num)

/-- the normal density with variance 1 -/
theorem normal_pdf (m x : ℝ) : gaussianPDFReal m ((1 : ℝ) ^ 2).toNNReal x = 1 / √(2 * π) * exp (-((x - m) ^ 2 / 2)) := by
  rw [gaussianPDFReal]
  simp [neg_div]

/-- the value of the gamma function at `j + 1/2` -/
theorem gamma_half (j : ℕ) : Gamma (j + 1 / 2) * (4 ^ j * j.factorial) = (2 * j).factorial * √π := by
  induction j with
  | zero =>
    have := Gamma_one_half_eq
    simpa using this
  | succ j ih =>
    push_cast
    rw [show (j : ℝ) + 1 + 1 / 2 = (j + 1 / 2) + 1 by ring, Gamma_add_one (by positivity), show 2 * (j + 1) = 2 * j + 1 + 1 by ring,
      Nat.factorial_succ, Nat.factorial_succ, Nat.factorial_succ]
    push_cast
    have : Gamma (j + 1 / 2) * (4 ^ j * j.factorial) * ((2 * j + 2) * (2 * j + 1)) = (2 * j).factorial * √π * ((2 * j + 2) * (2 * j + 1)) := by rw [ih]
    linear_combination this

/-- the terms of the mixture -/
theorem term_eq (m : ℝ) (j : ℕ) {y : ℝ} (hy : 0 < y) : wt (m ^ 2 / 2) j * gammaPDFReal ((1 + 2 * j) / 2) (1 / 2) y =
    1 / √(2 * π) / √y * exp (-((y + m ^ 2) / 2)) * ((m * √y) ^ (2 * j) / (2 * j).factorial) := by
  have hg := gamma_half j
  have hG : 0 < Gamma (j + 1 / 2) := Gamma_pos_of_pos (by positivity)
  have hf : ((2 * j).factorial : ℝ) ≠ 0 := Nat.cast_ne_zero.2 (Nat.factorial_ne_zero _)
  have hf' : (j.factorial : ℝ) ≠ 0 := Nat.cast_ne_zero.2 (Nat.factorial_ne_zero _)
  have hs := sqrt_pos.2 hy
  have hpi : 0 < √π := sqrt_pos.2 pi_pos
  have e0 : (1 + 2 * (j : ℝ)) / 2 = j + 1 / 2 := by ring
  have e1 : y ^ ((j : ℝ) + 1 / 2 - 1) = y ^ j / √y := by
    rw [show (j : ℝ) + 1 / 2 - 1 = j - 1 / 2 by ring, rpow_sub hy, rpow_natCast, ← sqrt_eq_rpow]
  have e2 : ((1 : ℝ) / 2) ^ ((j : ℝ) + 1 / 2) = 1 / (2 ^ j * √2) := by
    rw [rpow_add (by norm_num), rpow_natCast, ← sqrt_eq_rpow, sqrt_div one_pos.le, sqrt_one, div_pow, one_pow]
    field_simp
  have e3 : (m * √y) ^ (2 * j) = (m ^ 2) ^ j * y ^ j := by rw [mul_pow, pow_mul, pow_mul, sq_sqrt hy.le]
  have e4 : exp (-((y + m ^ 2) / 2)) = exp (-(m ^ 2 / 2)) * exp (-(1 / 2 * y)) := by rw [← exp_add]; congr 1; ring
  have e5 : (Gamma (j + 1 / 2))⁻¹ = 4 ^ j * j.factorial / ((2 * j).factorial * √π) := by
    rw [← hg]; field_simp
  have e6 : (4 : ℝ) ^ j = 2 ^ j * 2 ^ j := by rw [← mul_pow]; norm_num
  have h2 : (2 : ℝ) ^ j ≠ 0 := by positivity
  have h3 : √2 ≠ 0 := by positivity
  rw [wt, gamma_pdf hy, e0, e1, e2, e3, e4, div_eq_mul_inv _ (Gamma _), e5, e6, div_pow, sqrt_mul two_pos.le]
  field_simp

/-- the density of the square of a normal variable with variance 1 -/
theorem square_terms (m : ℝ) {y : ℝ} (hy : 0 < y) :
    HasSum (fun j : ℕ => wt (m ^ 2 / 2) j * gammaPDFReal ((1 + 2 * j) / 2) (1 / 2) y)
      (1 / √(2 * π) / √y * exp (-((y + m ^ 2) / 2)) * cosh (m * √y)) := by
  have := (hasSum_cosh (m * √y)).mul_left (1 / √(2 * π) / √y * exp (-((y + m ^ 2) / 2)))
  exact this.congr_fun fun j => (term_eq m j hy)

theorem square_noncentral (m : ℝ) : (kindLaw (.normal m 1)).map (stepFn .square) = chiSquareLaw 1 (m ^ 2) := by
  obtain ⟨h, hh⟩ : ∃ h : ℝ → ℝ, h = fun y => if 0 < y then 1 / √(2 * π) / √y * exp (-((y + m ^ 2) / 2)) * cosh (m * √y) else 0 := ⟨_, rfl⟩
  have hm : Measurable h := by
    rw [hh]
    exact Measurable.ite measurableSet_Ioi (by fun_prop) measurable_const
  have h0 : ∀ x, 0 ≤ h x := by
    intro x
    rw [hh]
    simp only
    split_ifs with hx
    · have := cosh_pos (m * √x)
      positivity
    · exact le_rfl
  have e1 : chiSquareLaw 1 (m ^ 2) = Textbook.law h := by
    rw [chiSquareLaw, mix_eq]
    have : ∀ j : ℕ, ENNReal.ofReal (wt (m ^ 2 / 2) j) • gammaMeasure ((1 + 2 * (j : ℝ)) / 2) (1 / 2) =
        volume.withDensity fun y => ENNReal.ofReal (wt (m ^ 2 / 2) j * gammaPDFReal ((1 + 2 * j) / 2) (1 / 2) y) := by
      intro j
      rw [gammaMeasure, ← withDensity_smul' _ _ ENNReal.ofReal_ne_top]
      congr 1
      ext y
      rw [Pi.smul_apply, smul_eq_mul, gammaPDF, ENNReal.ofReal_mul (wt_nonneg (by positivity) _)]
    simp_rw [this]
    rw [← withDensity_tsum fun j => ((measurable_gammaPDFReal _ _).const_mul _).ennreal_ofReal, Textbook.law]
    refine withDensity_congr_ae ?_
    filter_upwards [Sampler.ae_ne' 0] with y hy
    rw [tsum_apply (Pi.summable.2 fun _ => ENNReal.summable), hh]
    simp only
    rcases lt_or_gt_of_ne hy with hn | hp
    · rw [if_neg hn.le.not_gt]
      simp only [gamma_neg hn, mul_zero, ENNReal.ofReal_zero, tsum_zero]
    · rw [if_pos hp, ← (square_terms m hp).tsum_eq, ENNReal.ofReal_tsum_of_nonneg _ (square_terms m hp).summable]
      exact fun j => mul_nonneg (wt_nonneg (by positivity) _) (gammaPDFReal_nonneg (by positivity) (by norm_num) _)
  have half : ∀ c : ℝ, ∀ x, 0 ≤ gaussianPDFReal c ((1 : ℝ) ^ 2).toNNReal x / 2 := fun c x => div_nonneg (gaussianPDFReal_nonneg _ _ _) two_pos.le
  have hmeas : ∀ c : ℝ, Measurable fun x => gaussianPDFReal c ((1 : ℝ) ^ 2).toNNReal x / 2 :=
    fun c => (measurable_gaussianPDFReal _ _).div_const 2
  have e2 : (Textbook.law fun x => gaussianPDFReal m ((1 : ℝ) ^ 2).toNNReal x / 2).map (fun x => -x) =
      Textbook.law fun x => gaussianPDFReal (-m) ((1 : ℝ) ^ 2).toNNReal x / 2 := by
    refine Sampler.map_density (U := univ) (V := univ) MeasurableSet.univ MeasurableSet.univ (by fun_prop) (g' := fun _ => -1)
      (fun x _ => hasDerivAt_neg x) neg_injective.injOn (by rw [image_univ, neg_surjective.range_eq]) (by simp) (by simp) fun x _ => ?_
    rw [normal_pdf, normal_pdf, abs_neg, abs_one, one_mul, show -x - -m = -(x - m) by ring, neg_sq]
  have e3 : (kindLaw (.normal m 1)) = (Textbook.law fun x => gaussianPDFReal m ((1 : ℝ) ^ 2).toNNReal x / 2) +
      Textbook.law fun x => gaussianPDFReal m ((1 : ℝ) ^ 2).toNNReal x / 2 := by
    rw [← Sampler.law_add (half m) (half m) (hmeas m), kindLaw, Sampler.gaussian_law m one_pos]
    congr 1
    ext x; ring
  have e4 : (Textbook.law fun x => gaussianPDFReal (-m) ((1 : ℝ) ^ 2).toNNReal x / 2).map (stepFn .square) =
      (Textbook.law fun x => gaussianPDFReal m ((1 : ℝ) ^ 2).toNNReal x / 2).map (stepFn .square) := by
    rw [← e2, Measure.map_map (measurable_fn _) measurable_neg]
    congr 1
    ext x
    simp [stepFn]
  have hsum : ∀ x, (gaussianPDFReal m ((1 : ℝ) ^ 2).toNNReal x / 2 + gaussianPDFReal (-m) ((1 : ℝ) ^ 2).toNNReal x / 2) =
      1 / √(2 * π) * exp (-((x ^ 2 + m ^ 2) / 2)) * cosh (m * x) := by
    intro x
    rw [normal_pdf, normal_pdf, cosh_eq, show -((x - m) ^ 2 / 2) = -((x ^ 2 + m ^ 2) / 2) + m * x by ring,
      show -((x - -m) ^ 2 / 2) = -((x ^ 2 + m ^ 2) / 2) + -(m * x) by ring, exp_add, exp_add]
    ring
  rw [e3, Measure.map_add _ _ (measurable_fn _)]
  nth_rewrite 2 [← e4]
  rw [← Measure.map_add _ _ (measurable_fn _), ← Sampler.law_add (half m) (half (-m)) (hmeas m), e1]
  refine square_map (fun x => ?_) (fun x => add_nonneg (half m x) (half (-m) x)) ((hmeas m).add (hmeas (-m))) h0 hm
    (fun x hx => by rw [hh]; exact if_neg hx.le.not_gt) fun x hx => ?_
  · rw [hsum, hsum, neg_sq, mul_neg, cosh_neg]
  · rw [hsum, hh]
    simp only
    rw [if_pos (by positivity), sqrt_sq hx.le]
    field_simp

theorem chi_sfinite (df : ℝ) (j : ℕ) : SFinite (gammaMeasure ((df + 2 * j) / 2) (1 / 2)) := by unfold gammaMeasure; infer_instance

theorem chiSquare_central (df : ℝ) : chiSquareLaw df 0 = kindLaw (.chiSquare df) := by
  rw [chiSquareLaw, zero_div, mix_zero, kindLaw]; simp

/-- additivity -/
theorem chiSquare_add {k l a b : ℝ} (hk : 0 < k) (hl : 0 < l) (ha : 0 ≤ a) (hb : 0 ≤ b) :
    opLaw (· + ·) (chiSquareLaw k a) (chiSquareLaw l b) = chiSquareLaw (k + l) (a + b) := by
  have := chi_sfinite k
  have := chi_sfinite l
  unfold chiSquareLaw
  rw [add_div]
  refine mix_mix (by positivity) (by positivity) meas_add fun i j => ?_
  rw [gamma_add (by positivity) (by positivity) (by norm_num)]
  congr 1
  push_cast
  ring

end Pacal.Noncentral
