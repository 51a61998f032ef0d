import Verif.Noncentral.LemChi

/-!
Lemmas for `Verif.Noncentral.Props`: the noncentral F, beta and t laws.
-/

namespace Pacal.Noncentral
open MeasureTheory ProbabilityTheory Standard Identity Set Real

/-- mixtures of laws with densities -/
theorem mix_law {m : ℝ} (hm : 0 ≤ m) {f : ℕ → ℝ → ℝ} {h : ℝ → ℝ} (hf : ∀ j, Measurable (f j)) (h0 : ∀ j x, 0 ≤ f j x)
    (hs : ∀ᵐ x, HasSum (fun j => wt m j * f j x) (h x)) : poissonMix m (fun j => Textbook.law (f j)) = Textbook.law h := by
  rw [mix_eq]
  have : ∀ j : ℕ, ENNReal.ofReal (wt m j) • Textbook.law (f j) = volume.withDensity fun y => ENNReal.ofReal (wt m j * f j y) := by
    intro j
    rw [Textbook.law, ← withDensity_smul' _ _ ENNReal.ofReal_ne_top]
    congr 1
    ext y
    rw [Pi.smul_apply, smul_eq_mul, ENNReal.ofReal_mul (wt_nonneg hm _)]
  simp_rw [this]
  rw [← withDensity_tsum fun j => ((hf j).const_mul _).ennreal_ofReal, Textbook.law]
  refine withDensity_congr_ae ?_
  filter_upwards [hs] with y hy
  rw [tsum_apply (Pi.summable.2 fun _ => ENNReal.summable), ← hy.tsum_eq, ENNReal.ofReal_tsum_of_nonneg _ hy.summable]
  exact fun j => mul_nonneg (wt_nonneg hm _) (h0 j y)

theorem wt_sum {m : ℝ} (hm : 0 ≤ m) : HasSum (wt m) 1 := by
  have h := (NormedSpace.expSeries_div_hasSum_exp m).mul_left (exp (-m))
  rw [← Real.exp_eq_exp_ℝ, ← exp_add, neg_add_cancel, exp_zero] at h
  have e : wt m = fun j => exp (-m) * (m ^ j / (j.factorial : ℝ)) := funext fun j => mul_div_assoc _ _ _
  rwa [e]

theorem mix_prob {m : ℝ} (hm : 0 ≤ m) {ν : ℕ → Measure ℝ} (h : ∀ j, IsProbabilityMeasure (ν j)) :
    IsProbabilityMeasure (poissonMix m ν) := by
  refine ⟨?_⟩
  rw [mix_eq, Measure.sum_apply _ MeasurableSet.univ]
  simp only [Measure.smul_apply, measure_univ, smul_eq_mul, mul_one]
  rw [← ENNReal.ofReal_tsum_of_nonneg (wt_nonneg hm) (wt_sum hm).summable, (wt_sum hm).tsum_eq, ENNReal.ofReal_one]

/-- mixtures of probability laws with densities -/
theorem mix_law' {m : ℝ} (hm : 0 ≤ m) {f : ℕ → ℝ → ℝ} (hf : ∀ j, Measurable (f j)) (h0 : ∀ j x, 0 ≤ f j x)
    (hp : ∀ j, IsProbabilityMeasure (Textbook.law (f j))) :
    poissonMix m (fun j => Textbook.law (f j)) = Textbook.law fun x => ∑' j, wt m j * f j x := by
  refine mix_law hm hf h0 ?_
  have hmeas : Measurable fun x => ∑' j, ENNReal.ofReal (wt m j * f j x) :=
    Measurable.ennreal_tsum fun j => ((hf j).const_mul _).ennreal_ofReal
  have hfin : ∫⁻ x, ∑' j, ENNReal.ofReal (wt m j * f j x) ≠ ⊤ := by
    rw [lintegral_tsum fun j => ((hf j).const_mul _).ennreal_ofReal.aemeasurable]
    have : ∀ j, ∫⁻ x, ENNReal.ofReal (wt m j * f j x) = ENNReal.ofReal (wt m j) := by
      intro j
      simp_rw [ENNReal.ofReal_mul (wt_nonneg hm j)]
      rw [lintegral_const_mul _ (hf j).ennreal_ofReal]
      have := (hp j).measure_univ
      rw [Textbook.law, withDensity_apply _ MeasurableSet.univ, setLIntegral_univ] at this
      rw [this, mul_one]
    simp_rw [this]
    rw [← ENNReal.ofReal_tsum_of_nonneg (wt_nonneg hm) (wt_sum hm).summable]
    exact ENNReal.ofReal_ne_top
  filter_upwards [ae_lt_top hmeas hfin] with x hx
  have h := ENNReal.summable_toReal hx.ne
  simp_rw [ENNReal.toReal_ofReal (mul_nonneg (wt_nonneg hm _) (h0 _ x))] at h
  exact h.hasSum

/-! ### F -/

/-- the terms of the density of the F distribution -/
noncomputable def fTerm (df1 df2 : ℝ) (j : ℕ) (x : ℝ) : ℝ :=
  if 0 < x then (df1 / df2) ^ (df1 / 2 + j) * (df2 / (df2 + df1 * x)) ^ ((df1 + df2) / 2 + j) * x ^ (df1 / 2 - 1 + j) /
    ProbabilityTheory.beta (df1 / 2 + j) (df2 / 2) else 0

theorem f_term {a b : ℝ} (ha : 0 < a) (hb : 0 < b) (j : ℕ) :
    opLaw (· / ·) (gammaMeasure ((a + 2 * j) / 2) (a / 2)) (gammaMeasure (b / 2) (b / 2)) = Textbook.law (fTerm a b j) := by
  rw [gamma_div (by positivity) (half_pos hb) (half_pos ha) (half_pos hb)]
  congr 1
  ext x
  rw [fTerm]
  by_cases h0 : 0 < x
  · rw [if_pos h0, if_pos h0]
    have hq : 0 < b + a * x := by positivity
    obtain ⟨p, hp⟩ : ∃ p, p = a / 2 + j := ⟨_, rfl⟩
    have hp0 : 0 < p := by rw [hp]; positivity
    rw [show (a + 2 * (j : ℝ)) / 2 = p by rw [hp]; ring, show (a + b) / 2 + (j : ℝ) = p + b / 2 by rw [hp]; ring,
      show a / 2 - 1 + (j : ℝ) = p - 1 by rw [hp]; ring, ← hp, ProbabilityTheory.beta, show b / 2 + a / 2 * x = (b + a * x) / 2 by ring,
      rpow_neg (by positivity), div_rpow hq.le two_pos.le, div_rpow ha.le two_pos.le, div_rpow hb.le two_pos.le, div_rpow ha.le hb.le,
      div_rpow hb.le hq.le, rpow_add two_pos, rpow_add hb]
    have := (Gamma_pos_of_pos hp0).ne'
    have := (Gamma_pos_of_pos (half_pos hb)).ne'
    have := (Gamma_pos_of_pos (add_pos hp0 (half_pos hb))).ne'
    have := (rpow_pos_of_pos two_pos p).ne'
    have := (rpow_pos_of_pos two_pos (b / 2)).ne'
    have := (rpow_pos_of_pos hb p).ne'
    have := (rpow_pos_of_pos hb (b / 2)).ne'
    have := (rpow_pos_of_pos hq (p + b / 2)).ne'
    field_simp
  · rw [if_neg h0, if_neg h0]

theorem fTerm_meas (a b : ℝ) (j : ℕ) : Measurable (fTerm a b j) := by
  unfold fTerm
  exact Measurable.ite measurableSet_Ioi (by fun_prop) measurable_const

theorem fTerm_nonneg {a b : ℝ} (ha : 0 < a) (hb : 0 < b) (j : ℕ) (x : ℝ) : 0 ≤ fTerm a b j x := by
  unfold fTerm
  split_ifs with h
  · have : 0 < ProbabilityTheory.beta (a / 2 + j) (b / 2) := beta_pos (by positivity) (by positivity)
    positivity
  · exact le_rfl

theorem opLaw_prob {op : ℝ → ℝ → ℝ} (hop : Measurable fun p : ℝ × ℝ => op p.1 p.2) {μ ν : Measure ℝ} [IsProbabilityMeasure μ]
    [IsProbabilityMeasure ν] : IsProbabilityMeasure (opLaw op μ ν) := Measure.isProbabilityMeasure_map hop.aemeasurable

/-- the quotient of a scaled noncentral and a scaled chi-square variable -/
theorem f_law {a b l : ℝ} (ha : 0 < a) (hb : 0 < b) (hl : 0 ≤ l) :
    opLaw (· / ·) ((chiSquareLaw a l).map (stepFn (.shiftScale 0 (1 / a))))
      ((kindLaw (.chiSquare b)).map (stepFn (.shiftScale 0 (1 / b)))) = fLaw a b l := by
  have ga : ∀ j : ℕ, IsProbabilityMeasure (gammaMeasure ((a + 2 * j) / 2) (a / 2)) :=
    fun j => isProbabilityMeasure_gammaMeasure (by positivity) (half_pos ha)
  have gb : IsProbabilityMeasure (gammaMeasure (b / 2) (b / 2)) := isProbabilityMeasure_gammaMeasure (half_pos hb) (half_pos hb)
  rw [chiSquareLaw, mix_map (measurable_fn _), kindLaw, gamma_scale (by norm_num) (by positivity)]
  simp_rw [gamma_scale (show (0 : ℝ) < 1 / 2 by norm_num) (show 0 < 1 / a by positivity)]
  rw [show (1 : ℝ) / 2 / (1 / a) = a / 2 by field_simp, show (1 : ℝ) / 2 / (1 / b) = b / 2 by field_simp, mix_left meas_div]
  simp_rw [f_term ha hb]
  rw [mix_law' (by positivity) (fTerm_meas a b) (fTerm_nonneg ha hb) fun j => by
    rw [← f_term ha hb]; exact opLaw_prob meas_div, fLaw]
  congr 1
  ext x
  by_cases hx : 0 < x
  · rw [if_pos hx, fPdf]
    refine tsum_congr fun j => ?_
    rw [fTerm, if_pos hx, wt]
    have : ProbabilityTheory.beta (a / 2 + j) (b / 2) ≠ 0 := (beta_pos (by positivity) (by positivity)).ne'
    field_simp
  · rw [if_neg hx]
    simp [fTerm, hx]

/-! ### beta -/

/-- `1 / (1 + Y / X)` for independent gamma variables -/
theorem beta_term {p q : ℝ} (hp : 0 < p) (hq : 0 < q) :
    ((opLaw (· / ·) (gammaMeasure p (1 / 2)) (gammaMeasure q (1 / 2))).map (stepFn (.shiftScale 1 1))).map (stepFn .inv) =
      betaMeasure q p := by
  rw [gamma_div hp hq (by norm_num) (by norm_num), aff 1 one_pos]
  change _ = Textbook.law (betaPDFReal q p)
  refine inv_map (fun x hx => ?_) (fun x hx => ?_) fun x hx => ?_
  · rw [if_neg (by norm_num; linarith), mul_zero]
  · rw [betaPDFReal, if_neg fun h => lt_asymm hx h.1]
  · by_cases h1 : 1 < x
    · have hx1 : 0 < x - 1 := sub_pos.2 h1
      rw [if_pos (by simpa using hx1), betaPDFReal, if_pos ⟨inv_pos.2 hx, inv_lt_one_of_one_lt₀ h1⟩, ProbabilityTheory.beta,
        show 1 - x⁻¹ = (x - 1) / x by field_simp, div_rpow hx1.le hx.le, inv_rpow hx.le]
      have e1 : (1 : ℝ) / 2 + 1 / 2 * ((x - 1) / 1) = 1 / 2 * x := by ring
      rw [e1, div_one, mul_rpow (by norm_num) hx.le, rpow_neg (by norm_num), rpow_neg hx.le, rpow_add (by norm_num), add_comm p q,
        show q + p = (q - 1) + (p - 1) + 2 by ring, rpow_add hx, rpow_add hx]
      have := (rpow_pos_of_pos (show (0 : ℝ) < 1 / 2 by norm_num) p).ne'
      have := (rpow_pos_of_pos (show (0 : ℝ) < 1 / 2 by norm_num) q).ne'
      have := (rpow_pos_of_pos hx (p - 1)).ne'
      have := (rpow_pos_of_pos hx (q - 1)).ne'
      have := (Gamma_pos_of_pos hp).ne'
      have := (Gamma_pos_of_pos hq).ne'
      have := (Gamma_pos_of_pos (add_pos hq hp)).ne'
      rw [rpow_two]
      field_simp
    · rw [if_neg (by simpa using not_lt.1 h1), betaPDFReal, if_neg fun h => h1 ?_, mul_zero, mul_zero]
      have := h.2
      rwa [inv_lt_one₀ hx] at this

theorem beta_law {a b l : ℝ} (ha : 0 < a) (hb : 0 < b) :
    ((opLaw (· / ·) (kindLaw (.chiSquare (2 * b))) (chiSquareLaw (2 * a) l)).map (stepFn (.shiftScale 1 1))).map (stepFn .inv) =
      betaLaw a b l := by
  have ga : ∀ j : ℕ, IsProbabilityMeasure (gammaMeasure ((2 * a + 2 * j) / 2) (1 / 2)) :=
    fun j => isProbabilityMeasure_gammaMeasure (by positivity) (by norm_num)
  have gb : IsProbabilityMeasure (gammaMeasure (2 * b / 2) (1 / 2)) := isProbabilityMeasure_gammaMeasure (by positivity) (by norm_num)
  rw [chiSquareLaw, kindLaw, mix_right meas_div, mix_map (measurable_fn _), mix_map (measurable_fn _), betaLaw]
  refine mix_congr fun j => ?_
  rw [beta_term (by positivity) (by positivity), show (2 * a + 2 * (j : ℝ)) / 2 = a + j by ring, show 2 * b / 2 = b by ring]

/-! ### t -/

theorem t_law {v : ℝ} (hv : 0 < v) (μ : ℝ) :
    opLaw (· / ·) (kindLaw (.normal μ 1)) (((kindLaw (.chiSquare v)).map (stepFn (.shiftScale 0 (1 / v)))).map (stepFn (.pow (1 / 2)))) =
      tLaw v μ := by
  obtain ⟨h, hh⟩ : ∃ h : ℝ → ℝ, h = fun s => if 0 < s then 2 * s * gammaPDFReal (v / 2) (v / 2) (s ^ 2) else 0 := ⟨_, rfl⟩
  have hv2 := half_pos hv
  have i0 : IsProbabilityMeasure (gammaMeasure (v / 2) (v / 2)) := isProbabilityMeasure_gammaMeasure hv2 hv2
  have eh : (gammaMeasure (v / 2) (v / 2)).map (stepFn (.pow (1 / 2))) = Textbook.law h := by
    refine pow_map (f := gammaPDFReal (v / 2) (v / 2)) (by norm_num) (fun x hx => gamma_neg hx)
      (fun x hx => by rw [hh]; exact if_neg hx.le.not_gt) fun x hx => ?_
    have hp := rpow_pos_of_pos hx (1 / 2)
    rw [hh]
    simp only
    rw [if_pos hp, ← rpow_natCast (x ^ (1 / 2 : ℝ)) 2, ← rpow_mul hx.le]
    norm_num
    rw [rpow_neg hx.le]
    norm_num at hp
    have := hp.ne'
    field_simp
  have hm : Measurable h := by
    rw [hh]
    exact Measurable.ite measurableSet_Ioi (by have := measurable_gammaPDFReal (v / 2) (v / 2); fun_prop) measurable_const
  have h0 : ∀ x, 0 ≤ h x := by
    intro x
    rw [hh]
    simp only
    split_ifs with hx
    · exact mul_nonneg (by positivity) (gammaPDFReal_nonneg hv2 hv2 _)
    · exact le_rfl
  have i1 : IsProbabilityMeasure (Textbook.law h) := by rw [← eh]; exact Measure.isProbabilityMeasure_map (measurable_fn _).aemeasurable
  rw [kindLaw, kindLaw, gamma_scale (by norm_num) (by positivity), show (1 : ℝ) / 2 / (1 / v) = v / 2 by field_simp, eh,
    Sampler.gaussian_law μ one_pos]
  have i2 : IsProbabilityMeasure (Textbook.law (gaussianPDFReal μ ((1 : ℝ) ^ 2).toNNReal)) := by
    rw [← Sampler.gaussian_law μ one_pos]; infer_instance
  rw [div_as_fibre (integrable_gaussianPDFReal _ _) (Sampler.integrable_of_law hm h0)
    (Filter.Eventually.of_forall (gaussianPDFReal_nonneg _ _)) (Filter.Eventually.of_forall h0), tLaw]
  congr 1
  ext x
  have hb : 0 < x ^ 2 + v := by positivity
  obtain ⟨s, hs⟩ : ∃ s, s = √(x ^ 2 + v) := ⟨_, rfl⟩
  have hs0 : 0 < s := by rw [hs]; exact sqrt_pos.2 hb
  have hs2 : s ^ 2 = x ^ 2 + v := by rw [hs]; exact sq_sqrt hb.le
  rw [integral_pos_part fun t ht => by rw [hh]; simp only; rw [if_neg ht.le.not_gt, zero_mul]]
  have e : EqOn (fun t => h t * (|t| * gaussianPDFReal μ ((1 : ℝ) ^ 2).toNNReal (x * t)))
      (fun t => 2 * ((v / 2) ^ (v / 2) / Gamma (v / 2)) * (1 / √(2 * π)) * exp (-(v * μ ^ 2 / (2 * (x ^ 2 + v)))) * s ^ (-v) *
        (fun y => y ^ v * exp (-(1 / 2 * (y - μ * x / s) ^ 2))) (s * t)) (Ioi 0) := by
    intro t ht
    have ht0 : 0 < t := ht
    have hx : exp (-(v / 2 * t ^ 2)) * exp (-((x * t - μ) ^ 2 / 2)) =
        exp (-(v * μ ^ 2 / (2 * (x ^ 2 + v)))) * exp (-(1 / 2 * (s * t - μ * x / s) ^ 2)) := by
      rw [← exp_add, ← exp_add]
      congr 1
      rw [← hs2, show v = s ^ 2 - x ^ 2 by linarith]
      field_simp
      ring
    simp only [hh]
    rw [if_pos ht0, gamma_pdf (by positivity), normal_pdf, abs_of_pos ht0, mul_rpow hs0.le ht0.le,
      rpow_neg hs0.le, ← rpow_natCast t 2, ← rpow_mul ht0.le, show ((2 : ℕ) : ℝ) * (v / 2 - 1) = v - 1 - 1 by push_cast; ring,
      rpow_sub ht0, rpow_sub ht0, rpow_one, rpow_natCast]
    have := (rpow_pos_of_pos hs0 v).ne'
    calc _ = 2 * ((v / 2) ^ (v / 2) / Gamma (v / 2)) * (1 / √(2 * π)) * t ^ v *
          (exp (-(v / 2 * t ^ 2)) * exp (-((x * t - μ) ^ 2 / 2))) := by field_simp
      _ = _ := by rw [hx]; field_simp
  rw [setIntegral_congr_fun measurableSet_Ioi e, integral_const_mul,
    integral_comp_mul_left_Ioi (fun y => y ^ v * exp (-(1 / 2 * (y - μ * x / s) ^ 2))) _ hs0, mul_zero, tPdf, ← hs,
    smul_eq_mul]
  generalize (∫ y in Ioi 0, y ^ v * exp (-(1 / 2 * (y - μ * x / s) ^ 2))) = I
  have hg := (Gamma_pos_of_pos hv2).ne'
  have e1 : (x ^ 2 + v) ^ ((v + 1) / 2) = s ^ v * s := by
    rw [← hs2, ← rpow_natCast s 2, ← rpow_mul hs0.le, show ((2 : ℕ) : ℝ) * ((v + 1) / 2) = v + 1 by push_cast; ring, rpow_add hs0,
      rpow_one]
  have e2 : (2 : ℝ) ^ ((v - 1) / 2) = 2 ^ (v / 2) / √2 := by
    rw [show (v - 1) / 2 = v / 2 - 1 / 2 by ring, rpow_sub two_pos, ← sqrt_eq_rpow]
  have e3 : √(2 * π) = √2 * √π := sqrt_mul two_pos.le _
  have e4 : (2 : ℝ) = √2 * √2 := (mul_self_sqrt two_pos.le).symm
  rw [e1, e2, e3, div_rpow hv.le two_pos.le, rpow_neg hs0.le]
  have := (rpow_pos_of_pos hs0 v).ne'
  have := (rpow_pos_of_pos two_pos (v / 2)).ne'
  have : √π ≠ 0 := by positivity
  have : √(2:ℝ) ≠ 0 := by positivity
  generalize exp (-(v * μ ^ 2 / (2 * (x ^ 2 + v)))) = E
  generalize (2 : ℝ) ^ (v / 2) = T at *
  field_simp
  rw [sq_sqrt two_pos.le]

end Pacal.Noncentral
