import Verif.Standard.LemC

/-!
Lemmas for `Verif.Standard.PropsD`.
-/

namespace Pacal.Standard
open MeasureTheory Real Filter Topology

theorem frechet_breaks {a s : ℝ} (m : ℝ) (ha : 0 < a) (hs : 0 < s) :
    m < m + (a * (3 * (a + 1) - √(1 + 6 * a + 5 * a ^ 2)) / (a + 1) / (a + 2) / 2) ^ (1 / a) * s ∧
    m + (a * (3 * (a + 1) - √(1 + 6 * a + 5 * a ^ 2)) / (a + 1) / (a + 2) / 2) ^ (1 / a) * s <
      m + (a * (3 * (a + 1) + √(1 + 6 * a + 5 * a ^ 2)) / (a + 1) / (a + 2) / 2) ^ (1 / a) * s := by
  have hr : 0 < √(1 + 6 * a + 5 * a ^ 2) := sqrt_pos.2 (by positivity)
  have hr2 : √(1 + 6 * a + 5 * a ^ 2) < 3 * (a + 1) := by
    rw [sqrt_lt' (by positivity)]
    nlinarith [sq_nonneg a]
  have h1 : 0 < a * (3 * (a + 1) - √(1 + 6 * a + 5 * a ^ 2)) / (a + 1) / (a + 2) / 2 := by
    have := sub_pos.2 hr2
    positivity
  have h2 : a * (3 * (a + 1) - √(1 + 6 * a + 5 * a ^ 2)) / (a + 1) / (a + 2) / 2 <
      a * (3 * (a + 1) + √(1 + 6 * a + 5 * a ^ 2)) / (a + 1) / (a + 2) / 2 := by
    gcongr
    linarith
  have h3 := rpow_lt_rpow h1.le h2 (show 0 < 1 / a by positivity)
  have h4 := rpow_pos_of_pos h1 (1 / a)
  constructor
  · nlinarith [mul_pos h4 hs]
  · gcongr

theorem Flt.mul_real (a b : ℝ) : (Flt.real a).mul (Flt.real b) = Flt.real (a * b) := by simp [Flt.mul, Flt.real]

theorem Flt.add_real (a b : ℝ) : (Flt.real a).add (Flt.real b) = Flt.real (a + b) := by simp [Flt.add, Flt.real]

theorem Flt.exp_real (a : ℝ) : (Flt.real a).exp = Flt.real (Real.exp a) := by simp [Flt.exp, Flt.real]

theorem Flt.mul_bot_pos {c : ℝ} (hc : 0 < c) : (Flt.real c).mul (some ⊥) = some ⊥ := by
  rw [Flt.real, Flt.mul, if_neg (by simp [hc.ne']), EReal.coe_mul_bot_of_pos hc]

theorem Flt.mul_bot_neg {c : ℝ} (hc : c < 0) : (Flt.real c).mul (some ⊥) = some ⊤ := by
  rw [Flt.real, Flt.mul, if_neg (by simp [hc.ne]), EReal.coe_mul_bot_of_neg hc]

theorem Flt.add_top (c : ℝ) : (Flt.real c).add (some ⊤) = some ⊤ := by simp [Flt.real, Flt.add]

theorem Flt.top_add (c : ℝ) : Flt.add (some ⊤) (Flt.real c) = some ⊤ := by simp [Flt.real, Flt.add]

theorem Flt.add_bot (c : ℝ) : (Flt.real c).add (some ⊥) = some ⊥ := by simp [Flt.real, Flt.add]

theorem Flt.bot_add (c : ℝ) : Flt.add (some ⊥) (Flt.real c) = some ⊥ := by simp [Flt.real, Flt.add]

theorem logLogistic_formula {k s x : ℝ} (hk : 0 < k) (hs : 0 < s) (hx : 0 < x) :
    logLogisticPdf k s x = Flt.real (Textbook.logLogistic k s x) := by
  have hla : ∀ a b : ℝ, logaddexp a (Flt.real b) = Flt.real (log (exp a + exp b)) := by
    intro a b; simp [logaddexp, Flt.real]
  rw [logLogisticPdf, if_pos hx.le, logLogisticLogPdf, Textbook.logLogistic, if_pos hx]
  rw [show Flt.log x = Flt.real (log x) from if_pos hx, Flt.mul_real, Flt.mul_real, hla, Flt.mul_real, Flt.add_real,
    Flt.add_real, Flt.add_real, Flt.exp_real]
  congr 1
  rw [mul_comm k (log s), ← rpow_def_of_pos hs, mul_comm k (log x), ← rpow_def_of_pos hx, exp_add, exp_add, exp_add, exp_log hk,
    ← rpow_def_of_pos hs, mul_comm (k - 1), ← rpow_def_of_pos hx]
  have hsum : 0 < s ^ k + x ^ k := by positivity
  rw [mul_comm (-2 : ℝ), ← rpow_def_of_pos hsum, show (-2:ℝ) = -((2:ℕ):ℝ) by norm_num, rpow_neg hsum.le, rpow_natCast,
    div_rpow hx.le hs.le, div_rpow hx.le hs.le, rpow_sub_one hs.ne', rpow_sub_one hx.ne']
  have e1 := (rpow_pos_of_pos hs k).ne'
  generalize s ^ k = S at *
  generalize x ^ k = X at *
  field_simp

theorem measurable_gumbel (m b : ℝ) : Measurable (Textbook.gumbel m b) := by
  unfold Textbook.gumbel
  fun_prop

theorem gumbel_nonneg {b : ℝ} (hb : 0 < b) (m x : ℝ) : 0 ≤ Textbook.gumbel m b x := by
  rw [Textbook.gumbel]; positivity

theorem gumbel_tail {b : ℝ} (m : ℝ) (hb : 0 < b) (t : ℝ) :
    Textbook.law (Textbook.gumbel m b) (Set.Ici (m - b * t)) = ENNReal.ofReal (1 - exp (-exp t)) := by
  have h := Textbook.integral_gumbel m hb t
  have hi : IntegrableOn (Textbook.gumbel m b) (Set.Ici (m - b * t)) := by
    by_contra h'
    rw [integral_undef h'] at h
    have : exp (-exp t) < 1 := by rw [exp_lt_one_iff]; simp [exp_pos]
    linarith
  rw [Textbook.law, withDensity_apply _ measurableSet_Ici, ← ofReal_integral_eq_lintegral_ofReal hi
    (Eventually.of_forall (gumbel_nonneg hb m)), h]

/-- the textbook Gumbel law is a probability measure -/
theorem gumbel_prob {b : ℝ} (m : ℝ) (hb : 0 < b) : IsProbabilityMeasure (Textbook.law (Textbook.gumbel m b)) := by
  constructor
  have hmono : Monotone fun n : ℕ => Set.Ici (m - b * (n : ℝ)) := by
    intro i j hij
    refine Set.Ici_subset_Ici.2 ?_
    have : (i : ℝ) ≤ j := Nat.cast_le.2 hij
    nlinarith
  have hU : ⋃ n : ℕ, Set.Ici (m - b * (n : ℝ)) = Set.univ := by
    refine Set.eq_univ_of_forall fun x => Set.mem_iUnion.2 ?_
    obtain ⟨n, hn⟩ := exists_nat_ge ((m - x) / b)
    refine ⟨n, ?_⟩
    rw [div_le_iff₀ hb] at hn
    show m - b * (n : ℝ) ≤ x
    nlinarith
  have h := tendsto_measure_iUnion_atTop (μ := Textbook.law (Textbook.gumbel m b)) hmono
  rw [hU] at h
  refine tendsto_nhds_unique h ?_
  have h2 : Tendsto (fun n : ℕ => 1 - exp (-exp (n : ℝ))) atTop (𝓝 1) := by
    have h3 : Tendsto (fun n : ℕ => exp (-exp (n : ℝ))) atTop (𝓝 0) :=
      tendsto_exp_atBot.comp (tendsto_neg_atTop_atBot.comp (tendsto_exp_atTop.comp tendsto_natCast_atTop_atTop))
    simpa using h3.const_sub 1
  have h4 := ENNReal.tendsto_ofReal h2
  rw [ENNReal.ofReal_one] at h4
  refine h4.congr fun n => ?_
  exact (gumbel_tail m hb n).symm

theorem measurable_bump : Measurable Textbook.bump :=
  Measurable.ite (measurableSet_lt (by fun_prop) measurable_const) (by fun_prop) measurable_const

theorem bump_nonneg (t : ℝ) : 0 ≤ Textbook.bump t := by
  rw [Textbook.bump]
  split_ifs
  · positivity
  · exact le_rfl

theorem bump_le_one (t : ℝ) : Textbook.bump t ≤ 1 := by
  rw [Textbook.bump]
  split_ifs with h
  · rw [exp_le_one_iff]
    have : t ^ 2 < 1 := by rw [sq_lt_one_iff_abs_lt_one]; exact h
    exact div_nonpos_of_nonpos_of_nonneg (by norm_num) (by linarith)
  · exact zero_le_one

theorem integrable_bump : Integrable Textbook.bump := by
  have h1 : Integrable ((Set.Icc (-1:ℝ) 1).indicator fun _ => (1:ℝ)) :=
    (integrable_indicator_iff measurableSet_Icc).2 (integrableOn_const (by simp) (by simp))
  refine h1.mono' measurable_bump.aestronglyMeasurable (Eventually.of_forall fun t => ?_)
  rw [norm_of_nonneg (bump_nonneg t)]
  by_cases h : t ∈ Set.Icc (-1:ℝ) 1
  · rw [Set.indicator_of_mem h]; exact bump_le_one t
  · rw [Set.indicator_of_notMem h, Textbook.bump, if_neg]
    intro h'
    exact h ⟨(abs_lt.1 h').1.le, (abs_lt.1 h').2.le⟩

end Pacal.Standard
