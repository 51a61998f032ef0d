import Verif.Standard.LemC
import Verif.Standard.PropsB

/-!
C46: the distributions whose textbook densities are in `Verif/Standard/Spec.lean`.  Each theorem says that the
constructor builds a well-formed piecewise density whose law is the textbook law, that this law is a probability measure,
and that `pdf` agrees pointwise with the textbook density.
-/

namespace Pacal.Standard
open MeasureTheory Real Filter Topology

/-! ### Measurability and sign of the textbook densities -/

/-! ### Lévy -/

/-- `LevyDistr(c, xmin)` is the Lévy law. -/
theorem C46_levy {eps : ℝ} (he : 0 ≤ eps) {c : ℝ} (hc : 0 < c) (xmin : ℝ) :
    (Rep eps (levy eps c xmin) (Textbook.law (Textbook.levy c xmin)) ∧
      IsProbabilityMeasure (Textbook.law (Textbook.levy c xmin))) ∧
    ∀ x, levyPdf c xmin x = Textbook.levy c xmin x := by
  have hpdf : ∀ x, levyPdf c xmin x = Textbook.levy c xmin x := by
    intro x
    rw [levyPdf, Textbook.levy]
    by_cases h : x ≤ xmin
    · rw [if_pos h, if_neg (not_lt.2 h)]
    · have h' : 0 < x - xmin := sub_pos.2 (not_le.1 h)
      rw [if_neg h, if_pos (not_le.1 h), mul_div_assoc, exp_sub, ← rpow_def_of_pos h', show (-1.5 : ℝ) = -(3 / 2) by norm_num,
        rpow_neg h'.le, show -c / (2 * (x - xmin)) = -(0.5 * c / (x - xmin)) by field_simp; norm_num, exp_neg]
      have := (exp_pos (0.5 * c / (x - xmin))).ne'
      field_simp
  refine ⟨?_, hpdf⟩
  rw [levy, if_pos hc]
  refine rep_textbook (chain_half .none (by linarith) (Eventually.of_forall fun x _ => hpdf x)) he (measurable_levy _ _)
    (levy_nonneg _ _) ?_ (Textbook.integral_levy _ hc)
  intro x hx
  rw [ext_half] at hx
  exact if_neg fun h => hx h.le

/-! ### Laplace -/

/-- `LaplaceDistr(lmbda, mu)` is the Laplace law. -/
theorem C46_laplace {eps : ℝ} (he : 0 ≤ eps) {lmbda : ℝ} (hl : 0 < lmbda) (mu : ℝ) :
    (Rep eps (laplace eps lmbda mu) (Textbook.law (Textbook.laplace lmbda mu)) ∧
      IsProbabilityMeasure (Textbook.law (Textbook.laplace lmbda mu))) ∧
    ∀ x, laplacePdf lmbda mu x = Textbook.laplace lmbda mu x := by
  have hpdf : ∀ x, laplacePdf lmbda mu x = Textbook.laplace lmbda mu x := by
    intro x
    rw [laplacePdf, Textbook.laplace, neg_div, show 0.5 / lmbda = 1 / (2 * lmbda) by field_simp; norm_num]
  refine ⟨?_, hpdf⟩
  rw [laplace, if_pos hl]
  refine rep_textbook (chain_line4 .none .none (by linarith) (by linarith) (Eventually.of_forall hpdf)) he
    (measurable_laplace _ _) (fun x => ?_) ?_ (Textbook.integral_laplace _ hl)
  · rw [Textbook.laplace]; positivity
  · intro x hx
    rw [ext_line] at hx
    exact absurd (Set.mem_univ x) hx

/-! ### Student's t -/

/-- `StudentTDistr(df)` is Student's t law. -/
theorem C46_studentT {eps : ℝ} (he : 0 ≤ eps) {lg : ℝ → ℝ} (hlg : ∀ x, 0 < x → lg x = log (Gamma x)) {df : ℝ}
    (hdf : 0 < df) :
    (Rep eps (studentT eps lg df) (Textbook.law (Textbook.studentT df)) ∧
      IsProbabilityMeasure (Textbook.law (Textbook.studentT df))) ∧
    ∀ x, studentTPdf lg df x = Textbook.studentT df x := by
  have hpdf : ∀ x, studentTPdf lg df x = Textbook.studentT df x := by
    intro x
    have h1 : 0 < 1 + x ^ 2 / df := by positivity
    have g1 := Gamma_pos_of_pos (show 0 < (df + 1) / 2 by linarith)
    have g2 := Gamma_pos_of_pos (show 0 < df / 2 by linarith)
    rw [studentTPdf, Textbook.studentT, hlg _ (by linarith), hlg _ (by linarith), rpow_def_of_pos h1, ← log_mul hdf.ne' pi_ne_zero,
      sub_eq_add_neg, exp_add, exp_sub, exp_sub, exp_log g1, exp_log g2, sqrt_eq_rpow, rpow_def_of_pos (by positivity)]
    rw [show log (1 + x ^ 2 / df) * -((df + 1) / 2) = -((df + 1) / 2 * log (1 + x ^ 2 / df)) by ring,
      show 0.5 * log (df * π) = log (df * π) * (1 / 2) by ring]
    have e1 := (exp_pos (log (df * π) * (1 / 2))).ne'
    field_simp
  refine ⟨?_, hpdf⟩
  have hi : 0 < √(df / (df + 2)) := sqrt_pos.2 (by positivity)
  rw [studentT, if_pos hdf]
  refine rep_textbook (chain_line .none (by linarith) (Eventually.of_forall hpdf)) he
    (measurable_studentT _) (fun x => ?_) ?_ (Textbook.integral_studentT hdf)
  · have g1 := Gamma_pos_of_pos (show 0 < (df + 1) / 2 by linarith)
    have g2 := Gamma_pos_of_pos (show 0 < df / 2 by linarith)
    rw [Textbook.studentT]; positivity
  · intro x hx
    rw [ext_line] at hx
    exact absurd (Set.mem_univ x) hx

/-! ### Semicircle -/

/-- `SemicircleDistr(R)` is Wigner's semicircle law; inside `[-R, R]` `pdf` is its density. -/
theorem C46_semicircle_partial {eps : ℝ} (he : 0 ≤ eps) {R : ℝ} (hR : 0 < R) :
    (Rep eps (semicircle eps R) (Textbook.law (Textbook.semicircle R)) ∧
      IsProbabilityMeasure (Textbook.law (Textbook.semicircle R))) ∧
    ∀ x, |x| ≤ R → semicirclePdf R x = some (Textbook.semicircle R x) := by
  have hpdf : ∀ x, |x| ≤ R → semicirclePdf R x = some (Textbook.semicircle R x) := by
    intro x hx
    rw [semicirclePdf, Textbook.semicircle, if_pos (abs_le.1 hx), if_pos hx]
    congr 2
    · ring
    · congr 1; ring
  refine ⟨?_, hpdf⟩
  rw [semicircle, if_pos hR]
  have hae : ∀ x, -R ≤ x → x < R → (semicirclePdf R x).getD 0 = Textbook.semicircle R x := by
    intro x h1 h2
    rw [hpdf x (abs_le.2 ⟨h1, h2.le⟩)]
    rfl
  refine rep_textbook (chain_fin3 .left .none .right (by linarith) (by linarith) (by linarith)
    (Eventually.of_forall hae)) he (measurable_semicircle _) (fun x => ?_) ?_ (Textbook.integral_semicircle hR)
  · rw [Textbook.semicircle]
    split_ifs <;> positivity
  · intro x hx
    rw [ext_fin] at hx
    rw [Textbook.semicircle]
    by_cases h : |x| ≤ R
    · rw [if_pos h]
      have : x = R := by
        rcases lt_or_eq_of_le (abs_le.1 h).2 with h' | h'
        · exact absurd ⟨(abs_le.1 h).1, h'⟩ hx
        · exact h'
      rw [this, sub_self, sqrt_zero, mul_zero]
    · rw [if_neg h]

/-- Outside its support `pdf` of the semicircle distribution raises instead of returning 0. -/
theorem C46_violated_semicircle_outside {R x : ℝ} (h : R < |x|) : semicirclePdf R x = none ∧ Textbook.semicircle R x = 0 :=
  ⟨if_neg fun h' => absurd (abs_le.2 h') (not_le.2 h), if_neg (not_le.2 h)⟩

/-- On an array with points inside and outside the support it raises as well. -/
theorem C46_violated_semicircle_array : semicirclePdfArray 1 [0, 2] = none := by
  norm_num [semicirclePdfArray]

/-! ### F -/

/-- `FDistr(df1, df2)` is the F law. -/
theorem C46_fDistr {eps : ℝ} (he : 0 ≤ eps) {lg : ℝ → ℝ} (hlg : ∀ x, 0 < x → lg x = log (Gamma x)) {df1 df2 : ℝ}
    (h1 : 0 < df1) (h2 : 0 < df2) :
    (Rep eps (fDistr eps lg df1 df2) (Textbook.law (Textbook.fisher df1 df2)) ∧
      IsProbabilityMeasure (Textbook.law (Textbook.fisher df1 df2))) ∧
    ∀ x, x ≠ 0 → fPdf lg df1 df2 x = Flt.real (Textbook.fisher df1 df2 x) := by
  have hpdf : ∀ x, x ≠ 0 → fPdf lg df1 df2 x = Flt.real (Textbook.fisher df1 df2 x) := by
    intro x hx
    rw [fPdf, Textbook.fisher]
    rcases lt_or_gt_of_ne hx with h | h
    · rw [if_pos h, if_neg (not_lt.2 h.le)]
    · rw [if_neg (not_lt.2 h.le), if_neg hx, if_pos h, fLogPdf]
      congr 1
      have p1 : 0 < df1 * x := by positivity
      have p2 : 0 < df1 * x + df2 := by positivity
      have g1 := Gamma_pos_of_pos (half_pos h1)
      have g2 := Gamma_pos_of_pos (half_pos h2)
      have g3 := Gamma_pos_of_pos (show 0 < (df1 + df2) / 2 by linarith)
      rw [hlg _ (half_pos h1), hlg _ (half_pos h2), hlg _ (by linarith : 0 < (df1 + df2) / 2), ProbabilityTheory.beta,
        sqrt_eq_rpow, rpow_def_of_pos (x := _ / _) (by positivity), log_div (by positivity) (by positivity),
        log_mul (x := _ ^ df1) (by positivity) (by positivity), log_rpow p1, log_rpow h2, log_rpow p2, exp_sub (y := log x), exp_log h,
        show df1 / 2 + df2 / 2 = (df1 + df2) / 2 by ring]
      rw [show df2 / 2 * log df2 + log (Gamma ((df1 + df2) / 2)) - log (Gamma (df1 / 2)) - log (Gamma (df2 / 2)) +
        0.5 * (df1 * log (df1 * x) - (df1 + df2) * log (df1 * x + df2)) =
        (df1 * log (df1 * x) + df2 * log df2 - (df1 + df2) * log (df1 * x + df2)) * (1 / 2) +
        (log (Gamma ((df1 + df2) / 2)) - log (Gamma (df1 / 2)) - log (Gamma (df2 / 2))) by ring,
        exp_add, exp_sub, exp_sub, exp_log g1, exp_log g2, exp_log g3]
      field_simp
  refine ⟨?_, hpdf⟩
  have hae : ∀ᵐ x, 0 ≤ x → realPart (fPdf lg df1 df2) x = Textbook.fisher df1 df2 x := by
    filter_upwards [ae_ne 0] with x hx _
    rw [realPart, hpdf x hx]
    rfl
  have key : ∀ {l}, Chain (Textbook.fisher df1 df2) (.fin 0) .pinf l →
      Rep eps (PF.addAll eps [] l) (Textbook.law (Textbook.fisher df1 df2)) ∧
      IsProbabilityMeasure (Textbook.law (Textbook.fisher df1 df2)) := by
    intro l h
    refine rep_textbook h he (measurable_fisher _ _) (fisher_nonneg h1 h2) ?_ (Textbook.integral_fisher h1 h2)
    intro x hx
    rw [ext_half] at hx
    exact if_neg fun h => hx h.le
  rw [fDistr]
  dsimp only
  split_ifs with h3 h4
  · exact key (chain_half _ one_pos hae)
  · exact key (chain_half _ one_pos hae)
  · have h5 : 0 < df1 - 2 := by
      rcases lt_or_eq_of_le (not_lt.1 h3) with h | h
      · linarith
      · exact absurd h.symm h4
    exact key (chain_half3 _ _ (by positivity) (by linarith) hae)

/-- The value of the F density at 0 is the limit of the textbook density from the right. -/
theorem C46_fDistr_at_zero (lg : ℝ → ℝ) {df1 df2 : ℝ} (h1 : 0 < df1) (h2 : 0 < df2) :
    ∃ v, fPdf lg df1 df2 0 = some v ∧
      Tendsto (fun x : ℝ => (Textbook.fisher df1 df2 x : EReal)) (𝓝[>] 0) (𝓝 v) := by
  have hB := ProbabilityTheory.beta_pos (half_pos h1) (half_pos h2)
  have hg : Tendsto (fun x : ℝ => (1 + df1 / df2 * x) ^ (-((df1 + df2) / 2))) (𝓝[>] 0) (𝓝 1) := by
    have : ContinuousAt (fun x : ℝ => (1 + df1 / df2 * x) ^ (-((df1 + df2) / 2))) 0 :=
      ContinuousAt.rpow_const (by fun_prop) (Or.inl (by simp))
    have := this.tendsto
    simp only [mul_zero, add_zero, one_rpow] at this
    exact this.mono_left nhdsWithin_le_nhds
  have hc : 0 < (df1 / df2) ^ (df1 / 2) / ProbabilityTheory.beta (df1 / 2) (df2 / 2) := by positivity
  have h := tendsto_zero_density (a := df1 / 2) hc hg
  refine ⟨_, ?_, h.congr' ?_⟩
  · rw [fPdf, if_neg (lt_irrefl _), if_pos rfl, fAt0]
    by_cases h3 : df1 < 2
    · rw [if_pos h3, if_pos (by linarith)]
    · rw [if_neg h3, if_neg (show ¬ df1 / 2 < 1 by linarith)]
      by_cases h4 : df1 = 2
      · subst h4
        rw [if_pos rfl, if_pos (by norm_num), Flt.real]
        congr 2
        rw [show (2:ℝ) / 2 = 1 by norm_num, rpow_one, ProbabilityTheory.beta, Gamma_one, add_comm, Gamma_add_one (half_pos h2).ne']
        have := Gamma_pos_of_pos (half_pos h2)
        field_simp
      · rw [if_neg h4, if_neg (fun h => h4 (by linarith))]
        rfl
  · filter_upwards [self_mem_nhdsWithin] with x hx
    have hx : 0 < x := hx
    rw [Textbook.fisher_formula h1 h2 x hx, mul_rpow (by positivity) hx.le, rpow_sub_one (x := df1 / df2) (by positivity),
      show df1 / 2 + df2 / 2 = (df1 + df2) / 2 by ring]
    congr 1
    field_simp

/-! ### Weibull -/

/-- `WeibullDistr(k, lmbda)` is the Weibull law. -/
theorem C46_weibull {eps : ℝ} (he : 0 ≤ eps) {k lmbda : ℝ} (hk : 0 < k) (hl : 0 < lmbda) :
    (Rep eps (weibull eps k lmbda) (Textbook.law (Textbook.weibull k lmbda)) ∧
      IsProbabilityMeasure (Textbook.law (Textbook.weibull k lmbda))) ∧
    ∀ x, x ≠ 0 → weibullPdf k lmbda x = Flt.real (Textbook.weibull k lmbda x) := by
  have hpdf : ∀ x, x ≠ 0 → weibullPdf k lmbda x = Flt.real (Textbook.weibull k lmbda x) := by
    intro x hx
    rw [weibullPdf, Textbook.weibull]
    rcases lt_or_gt_of_ne hx with h | h
    · rw [if_pos h, if_neg (not_lt.2 h.le)]
    · rw [if_neg (not_lt.2 h.le), if_neg hx, if_pos h, rpow_def_of_pos (x := x / lmbda) (y := k - 1) (by positivity),
        sub_eq_add_neg, exp_add, mul_assoc]
  refine ⟨?_, hpdf⟩
  have hae : ∀ᵐ x, 0 ≤ x → realPart (weibullPdf k lmbda) x = Textbook.weibull k lmbda x := by
    filter_upwards [ae_ne 0] with x hx _
    rw [realPart, hpdf x hx]
    rfl
  have key : ∀ {l}, Chain (Textbook.weibull k lmbda) (.fin 0) .pinf l →
      Rep eps (PF.addAll eps [] l) (Textbook.law (Textbook.weibull k lmbda)) ∧
      IsProbabilityMeasure (Textbook.law (Textbook.weibull k lmbda)) := by
    intro l h
    refine rep_textbook h he (measurable_weibull _ _) (weibull_nonneg hk hl) ?_ (Textbook.integral_weibull hk hl)
    intro x hx
    rw [ext_half] at hx
    exact if_neg fun h => hx h.le
  rw [weibull, if_pos ⟨hk, hl⟩]
  dsimp only
  by_cases h1 : k ≤ 1
  · rw [if_pos h1, ofFun_three _ _ hk]
    exact key (chain_half _ hk hae)
  · have hm : 0 < lmbda * ((k - 1) / k) ^ (1 / k) := by
      have : 0 < (k - 1) / k := div_pos (by linarith) hk
      positivity
    rw [if_neg h1]
    split_ifs
    all_goals
      rw [ofFun_three _ _ hm]
      exact key (chain_half _ hm hae)

/-- For `k ≠ 1`, and for `k = 1` and `lmbda = 1`, the value of the Weibull density at 0 is the limit of the textbook
density.  Missing: `k = 1` with `lmbda ≠ 1`, where it is not (`C46_violated_weibull_at_zero`). -/
theorem C46_weibull_at_zero_partial {k lmbda : ℝ} (hk : 0 < k) (hl : 0 < lmbda) (h : k = 1 → lmbda = 1) :
    ∃ v, weibullPdf k lmbda 0 = some v ∧
      Tendsto (fun x : ℝ => (Textbook.weibull k lmbda x : EReal)) (𝓝[>] 0) (𝓝 v) := by
  have hg : Tendsto (fun x : ℝ => exp (-(x / lmbda) ^ k)) (𝓝[>] 0) (𝓝 1) := by
    have : ContinuousAt (fun x : ℝ => exp (-(x / lmbda) ^ k)) 0 :=
      ((ContinuousAt.rpow_const (by fun_prop) (Or.inr hk.le)).neg).rexp
    have := this.tendsto
    simp only [zero_div, zero_rpow hk.ne', neg_zero, exp_zero] at this
    exact this.mono_left nhdsWithin_le_nhds
  have hc : 0 < k / lmbda * (lmbda ^ (k - 1))⁻¹ := by positivity
  have ht := tendsto_zero_density (a := k) hc hg
  refine ⟨_, ?_, ht.congr' ?_⟩
  · rw [weibullPdf, if_neg (lt_irrefl _), if_pos rfl, weibullAt0]
    split_ifs with h1 h2
    · rfl
    · rw [h h2, h2]
      simp [Flt.real]
    · rfl
  · filter_upwards [self_mem_nhdsWithin] with x hx
    have hx : 0 < x := hx
    rw [Textbook.weibull, if_pos hx, div_rpow hx.le hl.le (k - 1)]
    congr 1
    ring

/-- With shape 1 the density at 0 is `1/lmbda` in the limit, but `pdf(0)` returns 1: `WeibullDistr(1, 2).pdf(0)`. -/
theorem C46_violated_weibull_at_zero :
    weibullPdf 1 2 0 = Flt.real 1 ∧ Tendsto (fun x : ℝ => Textbook.weibull 1 2 x) (𝓝[>] 0) (𝓝 (1 / 2)) := by
  constructor
  · rw [weibullPdf, if_neg (lt_irrefl _), if_pos rfl, weibullAt0, if_neg (lt_irrefl _), if_pos rfl]
  · have : Continuous fun x : ℝ => 1 / 2 * exp (-(x / 2)) := by fun_prop
    have := this.tendsto 0
    simp only [zero_div, neg_zero, exp_zero, mul_one] at this
    refine (this.mono_left nhdsWithin_le_nhds).congr' ?_
    filter_upwards [self_mem_nhdsWithin] with x hx
    have hx : 0 < x := hx
    rw [Textbook.weibull, if_pos hx]
    norm_num

/-! ### Non-vacuity -/

example : (Rep 1e-14 (studentT 1e-14 exactLg 3) (Textbook.law (Textbook.studentT 3))) :=
  (C46_studentT (by norm_num) (fun _ _ => rfl) (by norm_num)).1.1

example : (Rep 1e-14 (fDistr 1e-14 exactLg 3 5) (Textbook.law (Textbook.fisher 3 5))) :=
  (C46_fDistr (by norm_num) (fun _ _ => rfl) (by norm_num) (by norm_num)).1.1

example : (Rep 1e-14 (weibull 1e-14 2 3) (Textbook.law (Textbook.weibull 2 3))) :=
  (C46_weibull (by norm_num) (by norm_num) (by norm_num)).1.1

example : (Rep 1e-14 (levy 1e-14 2 (-3)) (Textbook.law (Textbook.levy 2 (-3)))) :=
  (C46_levy (by norm_num) (by norm_num) _).1.1

example : (Rep 1e-14 (laplace 1e-14 2 (-3)) (Textbook.law (Textbook.laplace 2 (-3)))) :=
  (C46_laplace (by norm_num) (by norm_num) _).1.1

example : (Rep 1e-14 (semicircle 1e-14 2) (Textbook.law (Textbook.semicircle 2))) :=
  (C46_semicircle_partial (by norm_num) (by norm_num)).1.1

end Pacal.Standard
