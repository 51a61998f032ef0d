import Verif.Depend.LemEx

/-!
Helper lemmas: three variables, the first and the third of which are dependent, with densities on different intervals.
-/

open MeasureTheory ProbabilityTheory Set

namespace Pacal.Depend

/-- the density of the uniform distribution on `(a, a + 1)` -/
noncomputable def unitPdf (a x : ℝ) : ℝ := if a < x ∧ x < a + 1 then 1 else 0

/-- a joint density on `(0, 1) × (2, 3)` with uniform margins -/
noncomputable def fgm (x y : ℝ) : ℝ := if (0 < x ∧ x < 1) ∧ 2 < y ∧ y < 3 then 1 + (2 * x - 1) * (2 * y - 5) else 0

theorem unitPdf_measurable (a : ℝ) : Measurable (unitPdf a) :=
  Measurable.ite (measurableSet_Ioo (a := a) (b := a + 1)) measurable_const measurable_const

theorem fgm_measurable : Measurable fun z : ℝ × ℝ => fgm z.1 z.2 := by
  have hS : MeasurableSet {z : ℝ × ℝ | (0 < z.1 ∧ z.1 < 1) ∧ 2 < z.2 ∧ z.2 < 3} := measurableSet_Ioo.prod measurableSet_Ioo
  exact Measurable.ite hS (by fun_prop) measurable_const

theorem fgm_nonneg (x y : ℝ) : 0 ≤ fgm x y := by
  rw [fgm]
  split_ifs with h
  · nlinarith [mul_pos h.1.1 (sub_pos.2 h.2.1), mul_pos (sub_pos.2 h.1.2) (sub_pos.2 h.2.2)]
  · rfl

theorem lint {f : ℝ → ℝ} {g : ℝ → ℝ} {a b c : ℝ} (hab : a ≤ b) (hf : ∀ x, f x = if a < x ∧ x < b then g x else 0) (hg : Continuous g)
    (h0 : ∀ x, 0 ≤ f x) (hc : ∫ x in a..b, g x = c) : ∫⁻ x, ENNReal.ofReal (f x) = ENNReal.ofReal c := by
  have e : (fun x => ENNReal.ofReal (f x)) = (Ioo a b).indicator fun x => ENNReal.ofReal (g x) := by
    ext x
    rw [hf]
    by_cases h : x ∈ Ioo a b
    · rw [indicator_of_mem h, if_pos (mem_Ioo.1 h)]
    · rw [indicator_of_notMem h, if_neg fun h' => h (mem_Ioo.2 h'), ENNReal.ofReal_zero]
  rw [e, lintegral_indicator measurableSet_Ioo, ← hc, intervalIntegral.integral_of_le hab, integral_Ioc_eq_integral_Ioo,
    ofReal_integral_eq_lintegral_ofReal]
  · exact (hg.integrableOn_Icc (a := a) (b := b)).mono_set Ioo_subset_Icc_self
  · refine (ae_restrict_mem measurableSet_Ioo).mono fun x hx => ?_
    have := h0 x
    rwa [hf, if_pos (mem_Ioo.1 hx)] at this

theorem quad (s t a b c : ℝ) : ∫ x in s..t, (a + b * x + c * x ^ 2) =
    a * (t - s) + b * (t ^ 2 - s ^ 2) / 2 + c * (t ^ 3 - s ^ 3) / 3 := by
  have i : ∀ f : ℝ → ℝ, Continuous f → IntervalIntegrable f volume s t := fun f hf => hf.intervalIntegrable _ _
  rw [intervalIntegral.integral_add (i _ (by fun_prop)) (i _ (by fun_prop)),
    intervalIntegral.integral_add (i _ (by fun_prop)) (i _ (by fun_prop)), intervalIntegral.integral_const_mul,
    intervalIntegral.integral_const_mul, integral_id, integral_pow]
  simp only [intervalIntegral.integral_const, smul_eq_mul]
  norm_num
  ring

theorem fgm_left (x : ℝ) : ∫⁻ y, ENNReal.ofReal (fgm x y) = ENNReal.ofReal (unitPdf 0 x) := by
  by_cases hx : 0 < x ∧ x < 1
  · refine lint (a := 2) (b := 3) (g := fun y => 1 + (2 * x - 1) * (2 * y - 5)) (by norm_num) (fun y => ?_) (by fun_prop)
      (fun y => fgm_nonneg x y) ?_
    · simp only [fgm, hx, and_self, true_and]
    · rw [unitPdf, if_pos ⟨hx.1, by linarith [hx.2]⟩]
      have : (fun y : ℝ => 1 + (2 * x - 1) * (2 * y - 5)) = fun y => (1 - 5 * (2 * x - 1)) + (2 * (2 * x - 1)) * y + 0 * y ^ 2 := by ext y; ring
      rw [this, quad]
      ring
  · rw [unitPdf, if_neg fun h => hx ⟨h.1, by linarith [h.2]⟩]
    simp [fgm, hx]

theorem fgm_right (y : ℝ) : ∫⁻ x, ENNReal.ofReal (fgm x y) = ENNReal.ofReal (unitPdf 2 y) := by
  by_cases hy : 2 < y ∧ y < 3
  · refine lint (a := 0) (b := 1) (g := fun x => 1 + (2 * x - 1) * (2 * y - 5)) (by norm_num) (fun x => ?_) (by fun_prop)
      (fun x => fgm_nonneg x y) ?_
    · simp only [fgm, hy, and_self, and_true]
    · rw [unitPdf, if_pos ⟨hy.1, by linarith [hy.2]⟩]
      have : (fun x : ℝ => 1 + (2 * x - 1) * (2 * y - 5)) = fun x => (1 - (2 * y - 5)) + (2 * (2 * y - 5)) * x + 0 * x ^ 2 := by ext x; ring
      rw [this, quad]
      ring
  · rw [unitPdf, if_neg fun h => hy ⟨h.1, by linarith [h.2]⟩]
    simp [fgm, hy]

/-- the joint law -/
noncomputable def fgmLaw : Measure (ℝ × ℝ) := (volume : Measure (ℝ × ℝ)).withDensity fun z => ENNReal.ofReal (fgm z.1 z.2)

theorem fgmLaw_fst : fgmLaw.map Prod.fst = volume.withDensity fun x => ENNReal.ofReal (unitPdf 0 x) := by
  ext A hA
  rw [Measure.map_apply measurable_fst hA, fgmLaw, withDensity_apply _ (measurable_fst hA), withDensity_apply _ hA,
    show (Prod.fst ⁻¹' A : Set (ℝ × ℝ)) = A ×ˢ univ from by ext z; simp, Measure.volume_eq_prod, ← Measure.prod_restrict,
    lintegral_prod _ fgm_measurable.ennreal_ofReal.aemeasurable, Measure.restrict_univ]
  simp only [fgm_left]

theorem fgmLaw_snd : fgmLaw.map Prod.snd = volume.withDensity fun x => ENNReal.ofReal (unitPdf 2 x) := by
  ext A hA
  rw [Measure.map_apply measurable_snd hA, fgmLaw, withDensity_apply _ (measurable_snd hA), withDensity_apply _ hA,
    show (Prod.snd ⁻¹' A : Set (ℝ × ℝ)) = univ ×ˢ A from by ext z; simp, Measure.volume_eq_prod, ← Measure.prod_restrict,
    lintegral_prod_symm _ fgm_measurable.ennreal_ofReal.aemeasurable, Measure.restrict_univ]
  simp only [fgm_right]

theorem unit_integral (a : ℝ) : ∫⁻ x, ENNReal.ofReal (unitPdf a x) = 1 := by
  rw [lint (f := unitPdf a) (a := a) (b := a + 1) (g := fun _ => 1) (c := 1) (by linarith) (fun x => rfl) continuous_const
    (fun x => by rw [unitPdf]; split_ifs <;> norm_num) (by simp), ENNReal.ofReal_one]

/-- the uniform law on `(a, a + 1)` -/
noncomputable def unitLaw (a : ℝ) : Measure ℝ := volume.withDensity fun x => ENNReal.ofReal (unitPdf a x)

instance (a : ℝ) : IsProbabilityMeasure (unitLaw a) := ⟨by rw [unitLaw, withDensity_apply _ MeasurableSet.univ, Measure.restrict_univ, unit_integral]⟩

instance : IsProbabilityMeasure fgmLaw := ⟨by
  have := Measure.map_apply (μ := fgmLaw) measurable_fst MeasurableSet.univ
  rw [fgmLaw_fst, withDensity_apply _ MeasurableSet.univ, Measure.restrict_univ, unit_integral] at this
  exact this.symm⟩

theorem unitLaw_range (a : ℝ) : ∀ᵐ x ∂unitLaw a, a ≤ x ∧ x ≤ a + 1 := by
  rw [unitLaw, ae_withDensity_iff (unitPdf_measurable a).ennreal_ofReal]
  refine Filter.Eventually.of_forall fun x hx => ?_
  by_contra h
  refine hx ?_
  rw [unitPdf, if_neg fun h' => h ⟨h'.1.le, h'.2.le⟩, ENNReal.ofReal_zero]

/-- the probability space and the variables: the first and the third have the joint density `fgm`, the second is independent
and uniform on `(0, 1)` -/
noncomputable def witLaw : Measure ((ℝ × ℝ) × ℝ) := fgmLaw.prod (unitLaw 0)

instance : IsProbabilityMeasure witLaw := by unfold witLaw; infer_instance

def witVar : ℕ → (ℝ × ℝ) × ℝ → ℝ
  | 0, w => w.1.1
  | 1, w => w.2
  | _, w => w.1.2

theorem witVar_measurable (k : ℕ) : Measurable (witVar k) := by
  match k with
  | 0 => exact measurable_fst.comp measurable_fst
  | 1 => exact measurable_snd
  | _ + 2 => exact measurable_snd.comp measurable_fst

theorem witVar_law (k : ℕ) : witLaw.map (witVar k) = unitLaw (if k < 2 then 0 else 2) := by
  match k with
  | 0 =>
    change witLaw.map (Prod.fst ∘ Prod.fst) = _
    rw [← Measure.map_map measurable_fst measurable_fst, witLaw, Measure.map_fst_prod, measure_univ, one_smul, fgmLaw_fst]
    rfl
  | 1 =>
    change witLaw.map Prod.snd = _
    rw [witLaw, Measure.map_snd_prod, measure_univ, one_smul]
    rfl
  | n + 2 =>
    change witLaw.map (Prod.snd ∘ Prod.fst) = _
    rw [← Measure.map_map measurable_snd measurable_fst, witLaw, Measure.map_fst_prod, measure_univ, one_smul, fgmLaw_snd,
      if_neg (by omega)]
    rfl

theorem witVar_density : HasDensity fgm witLaw (witVar 0) (witVar 2) := by
  refine ⟨⟨witVar_measurable 0, witVar_measurable 2⟩, fgm_measurable, fgm_nonneg, ?_⟩
  change witLaw.map Prod.fst = _
  rw [witLaw, Measure.map_fst_prod, measure_univ, one_smul]
  rfl

theorem witVar_one (k : ℕ) : HasDensityOne (unitPdf (if k < 2 then 0 else 2)) witLaw (witVar k) :=
  ⟨witVar_measurable k, unitPdf_measurable _, fun x => by rw [unitPdf]; split_ifs <;> norm_num, witVar_law k⟩

theorem witVar_range (k : ℕ) : ∀ᵐ w ∂witLaw, (if k < 2 then (0 : ℝ) else 2) ≤ witVar k w ∧ witVar k w ≤ (if k < 2 then (0 : ℝ) else 2) + 1 := by
  have h := unitLaw_range (if k < 2 then (0 : ℝ) else 2)
  rw [← witVar_law k] at h
  exact ae_of_ae_map (witVar_measurable k).aemeasurable h

/-- the entry of a variable in the object -/
noncomputable def witEntry (k : ℕ) : Var where
  mean := ∫ w, witVar k w ∂witLaw
  std := Real.sqrt Var[witVar k; witLaw]
  lo := if k < 2 then 0 else 2
  hi := (if k < 2 then 0 else 2) + 1
  pdf := unitPdf (if k < 2 then 0 else 2)

/-- an object with the three variables -/
noncomputable def wit : Obj where
  ms := [witEntry 0, witEntry 1, witEntry 2]
  pair := fun _ _ => ⟨fgm, .error .attribute, .error .attribute, .error .attribute⟩

theorem wit_describes : Describes wit witLaw witVar := by
  have hk : ∀ k v, wit.ms[k]? = some v → v = witEntry k := by
    intro k v h
    match k with
    | 0 => exact (Option.some.inj h).symm
    | 1 => exact (Option.some.inj h).symm
    | 2 => exact (Option.some.inj h).symm
    | n + 3 => simp [wit] at h
  refine ⟨fun k v h => ?_, fun k v h => ?_, fun k v h => ?_, fun k v h => ?_⟩ <;> rw [hk k v h]
  · rfl
  · rfl
  · exact witVar_range k
  · exact witVar_one k

theorem wit_mean : ∫ w, witVar 0 w ∂witLaw = 1 / 2 := by
  have := integral_one (witVar_one 0) (F := fun x => x) measurable_id (witVar_range 0)
  rw [← this, integrate, intervalIntegral.integral_of_le (by norm_num), integral_Ioc_eq_integral_Ioo]
  have e : ∫ x in Ioo (if 0 < 2 then (0 : ℝ) else 2) ((if 0 < 2 then (0 : ℝ) else 2) + 1), x * unitPdf (if 0 < 2 then (0 : ℝ) else 2) x =
      ∫ x in Ioo (0 : ℝ) 1, x := by
    rw [if_pos (by norm_num), zero_add]
    refine setIntegral_congr_fun measurableSet_Ioo fun x hx => ?_
    simp only [unitPdf]
    rw [if_pos ⟨hx.1, by linarith [hx.2]⟩, mul_one]
  rw [e, ← integral_Ioc_eq_integral_Ioo, ← intervalIntegral.integral_of_le zero_le_one, integral_id]
  norm_num

theorem wit_cov : cov[witVar 0, witVar 2; witLaw] = 1 / 36 := by
  have l0 := memLp_of_range (witVar_measurable 0) (witVar_range 0)
  have l2 := memLp_of_range (witVar_measurable 2) (witVar_range 2)
  rw [← cov_shift l0 l2 (5 / 2), wit_mean, ← iter_eq witVar_density (F := fun x y => (x - 1 / 2) * (y - 5 / 2)) (by fun_prop)
    (cov_integrable l0 l2 _ _) (witVar_range 0) (witVar_range 2)]
  simp only [Nat.ofNat_pos, if_true, lt_irrefl, if_false, zero_add]
  have e : integrateIter (fun x y => (x - 1 / 2) * (y - 5 / 2) * fgm x y) 0 1 2 (2 + 1) =
      ∫ y in (2 : ℝ)..3, (25 / 12 + (-5 / 3) * y + 1 / 3 * y ^ 2) := by
    rw [integrateIter, show (2 : ℝ) + 1 = 3 by norm_num, intervalIntegral.integral_of_le (by norm_num),
      intervalIntegral.integral_of_le (by norm_num), integral_Ioc_eq_integral_Ioo, integral_Ioc_eq_integral_Ioo]
    refine setIntegral_congr_fun measurableSet_Ioo fun y hy => ?_
    beta_reduce
    rw [intervalIntegral.integral_of_le zero_le_one, integral_Ioc_eq_integral_Ioo]
    have : ∫ x in Ioo (0 : ℝ) 1, (x - 1 / 2) * (y - 5 / 2) * fgm x y =
        ∫ x in Ioo (0 : ℝ) 1, ((y - 5 / 2) * (-1 / 2 + (2 * y - 5) / 2) + (y - 5 / 2) * (1 - 2 * (2 * y - 5)) * x +
          2 * (y - 5 / 2) * (2 * y - 5) * x ^ 2) := by
      refine setIntegral_congr_fun measurableSet_Ioo fun x hx => ?_
      simp only [fgm]
      rw [if_pos ⟨hx, hy⟩]
      ring
    rw [this, ← integral_Ioc_eq_integral_Ioo, ← intervalIntegral.integral_of_le zero_le_one, quad]
    ring
  rw [e, quad]
  norm_num

/-- the density 2x on the unit interval -/
noncomputable def rampPdf (x : ℝ) : ℝ := if 0 < x ∧ x < 1 then 2 * x else 0

theorem rampPdf_measurable : Measurable rampPdf :=
  Measurable.ite (measurableSet_Ioo (a := (0 : ℝ)) (b := 1)) (by fun_prop) measurable_const

theorem rampPdf_nonneg (x : ℝ) : 0 ≤ rampPdf x := by
  rw [rampPdf]; split_ifs with h
  · linarith [h.1]
  · rfl

noncomputable def rampOne : Measure ℝ := volume.withDensity fun x => ENNReal.ofReal (rampPdf x)

instance : IsProbabilityMeasure rampOne := ⟨by
  rw [rampOne, withDensity_apply _ MeasurableSet.univ, Measure.restrict_univ,
    lint (f := rampPdf) (a := 0) (b := 1) (g := fun x => 2 * x) (c := 1) zero_le_one (fun x => rfl) (by fun_prop) rampPdf_nonneg
      (by rw [intervalIntegral.integral_const_mul, integral_id]; norm_num), ENNReal.ofReal_one]⟩

/-- two independent variables -/
noncomputable def rampLaw : Measure (ℝ × ℝ) := (unitLaw 0).prod rampOne

instance : IsProbabilityMeasure rampLaw := by unfold rampLaw; infer_instance

def rampVar : ℕ → ℝ × ℝ → ℝ
  | 0, w => w.1
  | _, w => w.2

noncomputable def rampDensity : ℕ → ℝ → ℝ
  | 0 => unitPdf 0
  | _ => rampPdf

theorem rampVar_density (k : ℕ) : HasDensityOne (rampDensity k) rampLaw (rampVar k) := by
  match k with
  | 0 =>
    refine ⟨measurable_fst, unitPdf_measurable 0, fun x => by rw [rampDensity, unitPdf]; split_ifs <;> norm_num, ?_⟩
    change rampLaw.map Prod.fst = _
    rw [rampLaw, Measure.map_fst_prod, measure_univ, one_smul]
    rfl
  | n + 1 =>
    refine ⟨measurable_snd, rampPdf_measurable, rampPdf_nonneg, ?_⟩
    change rampLaw.map Prod.snd = _
    rw [rampLaw, Measure.map_snd_prod, measure_univ, one_smul]
    rfl

theorem rampVar_range (k : ℕ) : ∀ᵐ w ∂rampLaw, 0 ≤ rampVar k w ∧ rampVar k w ≤ 1 := by
  refine ae_of_ae_map (p := fun x : ℝ => 0 ≤ x ∧ x ≤ 1) (rampVar_density k).meas.aemeasurable ?_
  rw [(rampVar_density k).law, ae_withDensity_iff (rampVar_density k).pmeas.ennreal_ofReal]
  refine Filter.Eventually.of_forall fun x hx => ?_
  by_contra h
  refine hx ?_
  match k with
  | 0 =>
    change ENNReal.ofReal (unitPdf 0 x) = 0
    rw [unitPdf, if_neg fun h' => h ⟨h'.1.le, by linarith [h'.2]⟩, ENNReal.ofReal_zero]
  | n + 1 =>
    change ENNReal.ofReal (rampPdf x) = 0
    rw [rampPdf, if_neg fun h' => h ⟨h'.1.le, h'.2.le⟩, ENNReal.ofReal_zero]

noncomputable def rampEntry (k : ℕ) : Var where
  mean := ∫ w, rampVar k w ∂rampLaw
  std := Real.sqrt Var[rampVar k; rampLaw]
  lo := 0
  hi := 1
  pdf := rampDensity k

noncomputable def rampObj : Obj where
  ms := [rampEntry 0, rampEntry 1]
  pair := fun _ _ => ⟨fun x y => unitPdf 0 x * rampPdf y, .error .attribute, .error .attribute, .error .attribute⟩

theorem ramp_describes : Describes rampObj rampLaw rampVar := by
  have hk : ∀ k v, rampObj.ms[k]? = some v → v = rampEntry k := by
    intro k v h
    match k with
    | 0 => exact (Option.some.inj h).symm
    | 1 => exact (Option.some.inj h).symm
    | n + 2 => simp [rampObj] at h
  refine ⟨fun k v h => ?_, fun k v h => ?_, fun k v h => ?_, fun k v h => ?_⟩ <;> rw [hk k v h]
  · rfl
  · rfl
  · exact rampVar_range k
  · exact rampVar_density k

theorem int_on {p g F : ℝ → ℝ} (hp : ∀ x, p x = if 0 < x ∧ x < 1 then g x else 0) :
    integrate (fun x => F x * p x) 0 1 = ∫ x in (0 : ℝ)..1, F x * g x := by
  rw [integrate, intervalIntegral.integral_of_le zero_le_one, intervalIntegral.integral_of_le zero_le_one,
    integral_Ioc_eq_integral_Ioo, integral_Ioc_eq_integral_Ioo]
  refine setIntegral_congr_fun measurableSet_Ioo fun x hx => ?_
  simp only [hp]
  rw [if_pos (mem_Ioo.1 hx)]

theorem ramp_var : Var[rampVar 0; rampLaw] = 1 / 12 ∧ Var[rampVar 1; rampLaw] = 1 / 18 := by
  have hu : ∀ x, rampDensity 0 x = if 0 < x ∧ x < 1 then (1 : ℝ) else 0 := fun x => by
    simp only [rampDensity, unitPdf, zero_add]
  have hr : ∀ x, rampDensity 1 x = if 0 < x ∧ x < 1 then 2 * x else 0 := fun x => rfl
  have key : ∀ k, Var[rampVar k; rampLaw] = integrate (fun x => x ^ 2 * rampDensity k x) 0 1 -
      (integrate (fun x => x * rampDensity k x) 0 1) ^ 2 := by
    intro k
    rw [variance_eq_sub (memLp_of_range (rampVar_density k).meas (rampVar_range k)),
      integral_one (rampVar_density k) (F := fun x => x ^ 2) (by fun_prop) (rampVar_range k),
      integral_one (rampVar_density k) (F := fun x => x) (by fun_prop) (rampVar_range k)]
    rfl
  constructor
  · rw [key, int_on hu (F := fun x => x ^ 2), int_on hu (F := fun x => x)]
    simp only [mul_one, integral_pow, integral_id]
    norm_num
  · rw [key, int_on hr (F := fun x => x ^ 2), int_on hr (F := fun x => x)]
    have e1 : (fun x : ℝ => x ^ 2 * (2 * x)) = fun x => 2 * x ^ 3 := by ext x; ring
    have e2 : (fun x : ℝ => x * (2 * x)) = fun x => 2 * x ^ 2 := by ext x; ring
    rw [e1, e2, intervalIntegral.integral_const_mul, intervalIntegral.integral_const_mul, integral_pow, integral_pow]
    norm_num

end Pacal.Depend
