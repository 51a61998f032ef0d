import Verif.Distr.LemNonneg

/-! C56: the guard of logarithms and powers, in terms of probabilities. -/

namespace Pacal
open MeasureTheory Set

/-- **C56**, in terms of probabilities: for a distribution whose density is positive inside its pieces, logarithms, square roots
and powers other than -1, 0, 1, 2 are accepted if the variable is positive with certainty, and rejected with `ValueError`
otherwise.  Partial: for distributions that ask their density; see `C56_violated_cos`, `C56_violated_sin`, and
`C56_violated_zero_piece` for densities that are 0 on a piece. -/
theorem C56_exact_partial {eps : ℝ} {l : PF ℝ} (hw : PF.WF eps l) (hd : PF.Dens l) (hp : PF.Positive l) :
    ((PF.law l).real (Iic 0) = 0 → (Var.distr l).Answers (.ok ())) ∧
      ((PF.law l).real (Iic 0) ≠ 0 → (Var.distr l).Answers (.error .value)) := by
  constructor <;> intro h
  · have := answers_distr l
    rwa [if_pos ((nonneg_iff hw hd hp).2 h)] at this
  · have := answers_distr l
    rwa [if_neg (fun hc => h ((nonneg_iff hw hd hp).1 hc))] at this

/-- **C56**: what is accepted is positive with certainty, whatever the density (distributions that ask their density) -/
theorem C56_accepted_partial {l : PF ℝ} (hd : PF.Dens l) (h : (Var.distr l).log = .ok ()) :
    (PF.law l).real (Iic 0) = 0 := by
  refine nonneg_null hd ?_
  rw [log_distr] at h
  by_contra hc
  rw [if_neg hc] at h
  cases h

/-- the powers -1, 0, 1 and 2 are never rejected -/
theorem C56_powers (d : Var ℝ) : d.pow 0 = .ok () ∧ d.pow 1 = .ok () ∧ d.pow (-1) = .ok () ∧ d.pow 2 = .ok () := by
  unfold Var.pow
  refine ⟨by simp, by simp, by norm_num, by norm_num⟩

/-- the hypotheses of `C56_exact_partial` are met: the uniform distributions on [1, 2] and on [-1, 1] -/
example : (Var.distr [Seg.const (1 : ℝ) 2 1]).Answers (.ok ()) ∧ (Var.distr [Seg.const (-1 : ℝ) 1 (1 / 2)]).Answers (.error .value) := by
  refine ⟨(C56_exact_partial (eps := 0) (wf_one (by norm_num)) (dens_one _ _ (by norm_num)) (positive_single (by norm_num))).1 ?_,
    (C56_exact_partial (eps := 0) (wf_one (by norm_num)) (dens_one _ _ (by norm_num)) (positive_single (by norm_num))).2 ?_⟩
  · rw [law_one (by norm_num) measurableSet_Iic]
    have : Iic (0 : ℝ) ∩ Ico 1 2 = ∅ := by
      ext x; simp only [mem_inter_iff, mem_Iic, mem_Ico, mem_empty_iff_false, iff_false]; rintro ⟨h1, h2, h3⟩; linarith
    rw [this]; simp
  · rw [law_one (by norm_num) measurableSet_Iic]
    have : Iic (0 : ℝ) ∩ Ico (-1) 1 = Icc (-1) 0 := by
      ext x; simp only [mem_inter_iff, mem_Iic, mem_Ico, mem_Icc]; constructor
      · rintro ⟨h1, h2, h3⟩; exact ⟨h2, h1⟩
      · rintro ⟨h1, h2⟩; exact ⟨h2, h1, by linarith⟩
    rw [this]; simp

/-- **C56** is violated by cosines: `is_nonneg()` of `cos(X)` is true whatever its density.  If `X` is uniform on [2, 3], `cos(X)` is
negative with certainty, and `log(cos(X))`, `sqrt(cos(X))` and `cos(X) ** Y` are accepted. -/
theorem C56_violated_cos (mass : Seg ℝ → ℝ) : ∃ r, cosDistr 0 mass [Seg.const 2 3 1] = some r ∧ (PF.law r).real (Iio 0) = 1 ∧
    (Var.cos r).Answers (.ok ()) := by
  obtain ⟨r, h1, h2, h3, h4⟩ := C22_cos_partial (mass := mass) (le_refl (0 : ℝ)) (wf_one (a := 2) (b := 3) (c := 1) (by norm_num))
    (dens_one 2 3 (by norm_num)) (by intro a m a' m' h; simp at h)
  refine ⟨r, h1, ?_, rfl, ?_, rfl, fun x h0 h1 hm h2 => pow_other _ h0 h1 hm h2⟩
  · rw [h4, map_measureReal_apply Real.measurable_cos measurableSet_Iio, measureReal_restrict_apply (Real.measurable_cos measurableSet_Iio),
      law_one (by norm_num) ((Real.measurable_cos measurableSet_Iio).inter measurableSet_Ico)]
    have : Real.cos ⁻¹' Iio 0 ∩ Ico 0 (2 * Real.pi) ∩ Ico 2 3 = Ico 2 3 := by
      refine inter_eq_right.2 fun x hx => ⟨?_, ?_, ?_⟩
      · exact Real.cos_neg_of_pi_div_two_lt_of_lt (by linarith [hx.1, Real.pi_lt_d2]) (by linarith [hx.2, Real.pi_gt_three])
      · linarith [hx.1]
      · linarith [hx.2, Real.pi_gt_three]
    rw [this]
    norm_num [Real.volume_real_Ico]
  · unfold Var.sqrt
    simp only [pow_other (Var.cos r) (x := 1 / 2) (by norm_num) (by norm_num) (by norm_num) (by norm_num)]
    rfl

/-- **C56** is violated by sines in the same way: nothing is asked about the density. -/
theorem C56_violated_sin (l : PF ℝ) : (Var.sin l).log = .ok () := rfl

/-- **C56** is violated by densities that are 0 on a piece left of 0: they are rejected although the variable is positive with
certainty. -/
theorem C56_violated_zero_piece : let l : PF ℝ := [.const (-1) 1 0, .const 1 2 1]
    PF.WF 0 l ∧ PF.Dens l ∧ (PF.law l).real (Iic 0) = 0 ∧ (Var.distr l).Answers (.error .value) := by
  intro l
  have hd : PF.Dens l := dens_pair (const_dens _ _ le_rfl) (const_dens _ _ zero_le_one)
  refine ⟨wf_pair (show (-1 : ℝ) < 1 by norm_num) (show (1 : ℝ) < 2 by norm_num) ?_, hd, ?_, ?_⟩
  · exact ⟨ext_le.2 le_rfl, fun a m a' m' h => by cases h⟩
  · have e : ∀ a b {c : ℝ}, 0 ≤ c → (Seg.const a b c).law.real (Iic 0) = (PF.law [Seg.const a b c]).real (Iic 0) := by
      intro a b c hc
      rw [PF.law_real_cons (dens_one a b hc)]
      simp
    rw [law_pair hd, e _ _ le_rfl, e _ _ zero_le_one, law_one le_rfl measurableSet_Iic, law_one zero_le_one measurableSet_Iic]
    have : Iic (0 : ℝ) ∩ Ico 1 2 = ∅ := by
      ext x; simp only [mem_inter_iff, mem_Iic, mem_Ico, mem_empty_iff_false, iff_false]; rintro ⟨h1, h2, h3⟩; linarith
    rw [this]; simp
  · have := answers_distr l
    rwa [if_neg (by simp [l, PF.isNonneg, Seg.isDirac, Seg.lo])] at this

/-- **C56** is violated by random variables without a distribution: their logarithm is rejected with `AttributeError` (only that of
an exponential is accepted), while the square root is accepted without any test. -/
theorem C56_violated_rv : (Var.rv : Var ℝ).log = .error .attribute ∧ (Var.rv : Var ℝ).sqrt = .ok () ∧ (Var.expRV : Var ℝ).log = .ok () :=
  ⟨rfl, rfl, rfl⟩

/-- **C56**, about whole powers: the cube of a variable that takes negative values is rejected, although it is well defined. -/
theorem C56_finding_cube : (Var.distr [Seg.const (-1 : ℝ) 1 (1 / 2)]).pow 3 = .error .value := by
  rw [pow_other _ (by norm_num) (by norm_num) (by norm_num) (by norm_num), log_distr,
    if_neg (by simp [PF.isNonneg, Seg.isDirac, Seg.lo])]

end Pacal
