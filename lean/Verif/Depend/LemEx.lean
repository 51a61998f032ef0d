import Verif.Depend.LemProps
import Mathlib.Probability.Independence.Basic
import Mathlib.MeasureTheory.Measure.Lebesgue.Basic
import Mathlib.Tactic.NormNum

/-!
Helper lemmas: the independence copula, the bounds of Fréchet, and laws on the unit square.
-/

open MeasureTheory ProbabilityTheory Set

namespace Pacal.Depend

variable {Ω : Type*} [MeasurableSpace Ω] {P : Measure Ω} [IsProbabilityMeasure P] {X Y : Ω → ℝ}

theorem joins_indep (hX : Measurable X) (hY : Measurable Y) (cX : Continuous (cdf (P.map X)))
    (cY : Continuous (cdf (P.map Y))) (hi : IndepFun X Y P) : Joins (fun u v => Copula.piCcdf [u, v]) P X Y := by
  refine ⟨⟨hX, hY⟩, ⟨cX, cY⟩, fun x y => ?_⟩
  rw [cdf_map_apply hX, cdf_map_apply hY]
  have := hi.measure_inter_preimage_eq_mul (Iic x) (Iic y) measurableSet_Iic measurableSet_Iic
  have e : P.real {ω | X ω ≤ x ∧ Y ω ≤ y} = P.real {ω | X ω ≤ x} * P.real {ω | Y ω ≤ y} := by
    rw [Measure.real, Measure.real, Measure.real, ← ENNReal.toReal_mul]
    exact congrArg ENNReal.toReal this
  rw [e]
  simp [Copula.piCcdf]

theorem volume_square : (volume : Measure (ℝ × ℝ)).withDensity (fun z => ENNReal.ofReal (onSquare (fun _ _ => 1) z.1 z.2)) =
    (volume.restrict (Icc (0 : ℝ) 1)).prod (volume.restrict (Icc (0 : ℝ) 1)) := by
  have hS : MeasurableSet (Ioo (0 : ℝ) 1 ×ˢ Ioo (0 : ℝ) 1) := measurableSet_Ioo.prod measurableSet_Ioo
  have e : (fun z : ℝ × ℝ => ENNReal.ofReal (onSquare (fun _ _ => 1) z.1 z.2)) = (Ioo (0 : ℝ) 1 ×ˢ Ioo (0 : ℝ) 1).indicator 1 := by
    ext z
    by_cases hz : z ∈ Ioo (0 : ℝ) 1 ×ˢ Ioo (0 : ℝ) 1
    · rw [indicator_of_mem hz, onSquare, if_pos ⟨hz.1, hz.2⟩]; simp
    · rw [indicator_of_notMem hz, onSquare, if_neg fun h => hz ⟨h.1, h.2⟩]; simp
  rw [e, withDensity_indicator_one hS, Measure.volume_eq_prod, ← Measure.prod_restrict,
    Measure.restrict_congr_set (Ioo_ae_eq_Icc (μ := volume) (a := (0 : ℝ)) (b := 1))]

theorem onSquare_measurable {k : ℝ → ℝ → ℝ} (h : Measurable fun z : ℝ × ℝ => k z.1 z.2) :
    Measurable fun z : ℝ × ℝ => onSquare k z.1 z.2 := by
  have hS : MeasurableSet {z : ℝ × ℝ | (0 < z.1 ∧ z.1 < 1) ∧ 0 < z.2 ∧ z.2 < 1} :=
    measurableSet_Ioo.prod measurableSet_Ioo
  exact Measurable.ite hS h measurable_const

theorem density_indep (hX : Measurable X) (hY : Measurable Y) (cX : Continuous (cdf (P.map X)))
    (cY : Continuous (cdf (P.map Y))) (hi : IndepFun X Y P) :
    HasDensity (onSquare fun u v => Copula.piCpdf [u, v]) P (rank P X) (rank P Y) := by
  have e : (fun u v : ℝ => Copula.piCpdf [u, v]) = fun _ _ => 1 := by
    ext u v; simp [Copula.piCpdf]
  rw [e]
  refine ⟨⟨rank_measurable hX, rank_measurable hY⟩, onSquare_measurable measurable_const, fun x y => ?_, ?_⟩
  · rw [onSquare]; split_ifs <;> norm_num
  · rw [volume_square]
    nth_rewrite 1 [← rank_law hX cX]
    rw [← rank_law hY cY]
    have h2 : IndepFun (rank P X) (rank P Y) P :=
      hi.comp (monotone_cdf (P.map X)).measurable (monotone_cdf (P.map Y)).measurable
    exact (indepFun_iff_map_prod_eq_prod_map_map (rank_measurable hX).aemeasurable (rank_measurable hY).aemeasurable).1 h2

theorem mCcdf_two {u v : ℝ} (hu : u ≤ 1) (hv : v ≤ 1) : Copula.mCcdf [u, v] = min u v := by
  simp only [Copula.mCcdf, List.foldl_cons, List.foldl_nil, zero_add]
  grind

theorem joins_min (hX : Measurable X) (cX : Continuous (cdf (P.map X))) : Joins (fun u v => Copula.mCcdf [u, v]) P X X := by
  refine ⟨⟨hX, hX⟩, ⟨cX, cX⟩, fun x y => ?_⟩
  rw [mCcdf_two (cdf_le_one _ _) (cdf_le_one _ _), ← (monotone_cdf (P.map X)).map_min, cdf_map_apply hX]
  simp only [le_min_iff]

/-- the uniform law on the unit interval -/
theorem uniform_cdf (x : ℝ) : cdf (volume.restrict (Icc (0 : ℝ) 1)) x = max 0 (min x 1) := by
  have : IsProbabilityMeasure (volume.restrict (Icc (0 : ℝ) 1)) := ⟨by simp⟩
  rw [cdf_eq_real, Measure.real, Measure.restrict_apply measurableSet_Iic,
    show Iic x ∩ Icc (0 : ℝ) 1 = Icc 0 (min x 1) from ?_, Real.volume_Icc, sub_zero, ENNReal.toReal_ofReal']
  · rw [max_comm]
  · ext y
    simp only [mem_inter_iff, mem_Iic, mem_Icc, le_min_iff]
    tauto

theorem uniform_cdf_continuous : Continuous (cdf (volume.restrict (Icc (0 : ℝ) 1))) := by
  have : (cdf (volume.restrict (Icc (0 : ℝ) 1)) : ℝ → ℝ) = fun x => max 0 (min x 1) := funext uniform_cdf
  rw [this]
  fun_prop

theorem int_lin : ∫ y in (0 : ℝ)..1, 1 / 2 * y = 1 / 4 := by
  rw [intervalIntegral.integral_const_mul, integral_id]; norm_num

theorem int_pi : integrateIter (fun x y => Copula.piCcdf [x, y]) 0 1 0 1 = 1 / 4 := by
  rw [← int_lin, integrateIter]
  congr 1
  ext y
  simp only [Copula.piCcdf, List.foldl_cons, List.foldl_nil, one_mul, intervalIntegral.integral_mul_const, integral_id]
  ring

theorem int_pi_pdf : integrateIter (fun x y => Copula.piCcdf [x, y] * Copula.piCpdf [x, y]) 0 1 0 1 = 1 / 4 := by
  rw [← int_pi]
  simp only [Copula.piCpdf, mul_one]

theorem int_m : 12 * integrateIter (fun x y => Copula.mCcdf [x, y]) 0 1 0 1 - 3 = 1 := by
  have : IsProbabilityMeasure (volume.restrict (Icc (0 : ℝ) 1)) := ⟨by simp⟩
  have hc : Continuous (cdf ((volume.restrict (Icc (0 : ℝ) 1)).map id)) := by
    rw [Measure.map_id]; exact uniform_cdf_continuous
  rw [spearman_eq (joins_min measurable_id hc), spearman_self measurable_id hc]

theorem int_w : integrateIter (fun x y => Copula.wCcdf [x, y]) 0 1 0 1 = 1 / 6 := by
  have e : ∀ y ∈ uIcc (0 : ℝ) 1, ∫ x in (0 : ℝ)..1, Copula.wCcdf [x, y] = y ^ 2 / 2 := by
    intro y hy
    rw [uIcc_of_le zero_le_one] at hy
    have hf : ∀ x, Copula.wCcdf [x, y] = max 0 (x + y - 1) := by
      intro x
      simp only [Copula.wCcdf]
      grind
    simp only [hf]
    have c : Continuous fun x : ℝ => max 0 (x + y - 1) := by fun_prop
    rw [← intervalIntegral.integral_add_adjacent_intervals (b := 1 - y) (c.intervalIntegrable _ _) (c.intervalIntegrable _ _)]
    have e1 : ∫ x in (0 : ℝ)..(1 - y), max 0 (x + y - 1) = ∫ x in (0 : ℝ)..(1 - y), (0 : ℝ) := by
      refine intervalIntegral.integral_congr fun x hx => ?_
      rw [uIcc_of_le (by linarith [hy.2])] at hx
      exact max_eq_left (by linarith [hx.2])
    have e2 : ∫ x in (1 - y)..(1 : ℝ), max 0 (x + y - 1) = ∫ x in (1 - y)..(1 : ℝ), (x + (y - 1)) := by
      refine intervalIntegral.integral_congr fun x hx => ?_
      rw [uIcc_of_le (by linarith [hy.1])] at hx
      change max 0 (x + y - 1) = _
      rw [max_eq_right (by linarith [hx.1])]; ring
    have i1 : IntervalIntegrable (fun x : ℝ => x) volume (1 - y) 1 := continuous_id.intervalIntegrable _ _
    have i2 : IntervalIntegrable (fun _ : ℝ => y - 1) volume (1 - y) 1 := continuous_const.intervalIntegrable _ _
    rw [e1, e2, intervalIntegral.integral_add i1 i2, integral_id, intervalIntegral.integral_const, intervalIntegral.integral_const]
    simp only [smul_eq_mul]
    ring
  rw [integrateIter, intervalIntegral.integral_congr e, intervalIntegral.integral_div, integral_pow]
  norm_num

end Pacal.Depend
