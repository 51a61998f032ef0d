import Verif.Noisy.Lem

/-!
C83: functions with noise.
-/

open MeasureTheory ProbabilityTheory Set

namespace Pacal.Noisy

variable {Ω : Type*} [MeasurableSpace Ω] {P : Measure Ω} [IsProbabilityMeasure P] {n : ℕ} {o : Noisy n}

/-- The object is the conditional density of the value `f(X) + E` given `X`: for every law of `X`, the probability that `X` is in `B`
and the value is in `C` is the integral of the object over `C`, integrated over `B` with the law of `X`.  The full statement has no
hypothesis on the range of `f`. -/
theorem C83_joint_partial (hr : RangeKnown o) {X : Ω → Fin n → ℝ} {E : Ω → ℝ} (h : Describes o P X E) {B : Set (Fin n → ℝ)}
    (hB : MeasurableSet B) {C : Set ℝ} (hC : MeasurableSet C) :
    P {ω | X ω ∈ B ∧ o.f (X ω) + E ω ∈ C} = ∫⁻ x in B, (∫⁻ z in C, ENNReal.ofReal (o.call (point x z))) ∂P.map X := by
  have hS : MeasurableSet {p : (Fin n → ℝ) × ℝ | p.1 ∈ B ∧ o.f p.1 + p.2 ∈ C} :=
    (measurable_fst hB).inter (((h.measF.comp measurable_fst).add measurable_snd) hC)
  have hmap : P.map (fun ω => (X ω, E ω)) = (P.map X).prod (P.map E) :=
    (indepFun_iff_map_prod_eq_prod_map_map h.measX.aemeasurable h.measE.aemeasurable).1 h.indep
  have e : P {ω | X ω ∈ B ∧ o.f (X ω) + E ω ∈ C} = P.map (fun ω => (X ω, E ω)) {p | p.1 ∈ B ∧ o.f p.1 + p.2 ∈ C} := by
    rw [Measure.map_apply (h.measX.prodMk h.measE) hS]
    rfl
  have hpE : IsProbabilityMeasure (P.map E) := Measure.isProbabilityMeasure_map h.measE.aemeasurable
  rw [e, hmap, Measure.prod_apply hS, ← lintegral_indicator hB]
  refine lintegral_congr_ae ?_
  have hbox : ∀ᵐ x ∂P.map X, x ∈ Icc o.lo o.hi := (ae_map_iff h.measX.aemeasurable measurableSet_Icc).2 h.range
  filter_upwards [hbox] with x hx
  by_cases hxB : x ∈ B
  · rw [indicator_of_mem hxB]
    have : Prod.mk x ⁻¹' {p : (Fin n → ℝ) × ℝ | p.1 ∈ B ∧ o.f p.1 + p.2 ∈ C} = {e | o.f x + e ∈ C} := by
      ext e
      exact and_iff_right hxB
    rw [this, h.law, shift_law _ hC]
    simp only [call_point h.noise hr hx]
  · rw [indicator_of_notMem hxB]
    have : Prod.mk x ⁻¹' {p : (Fin n → ℝ) × ℝ | p.1 ∈ B ∧ o.f p.1 + p.2 ∈ C} = ∅ := by
      ext e
      simp [hxB]
    rw [this, measure_empty]

/-- Eliminating the variable of the value gives the constant 1, which is the integral over it at every point of the ranges; nothing
else can be eliminated. -/
theorem C83_eliminate_partial (hr : RangeKnown o) (hg : GoodNoise o) {x : Fin n → ℝ} (hx : x ∈ Icc o.lo o.hi) :
    o.eliminate [Fin.last n] = .ok (∫⁻ z, ENNReal.ofReal (o.call (point x z))).toReal ∧
    ∀ var, var ≠ [Fin.last n] → o.eliminate var = .error .runtime := by
  constructor
  · have : ∫⁻ z, ENNReal.ofReal (o.call (point x z)) = 1 := by
      have h1 := shift_law (g := o.noise) (o.f x) MeasurableSet.univ
      have e : {e : ℝ | o.f x + e ∈ univ} = univ := by ext; simp
      rw [e, withDensity_apply _ MeasurableSet.univ, Measure.restrict_univ, hg.one] at h1
      simp only [call_point hg hr hx]
      exact h1.symm
    rw [this]
    simp [Noisy.eliminate]
  · intro var hv
    refine if_pos ?_
    by_contra hn
    push Not at hn
    match var, hn with
    | [v], hn => exact hv (by simpa using hn.2)

/-- Fixing variables gives a function of the other variables with the values of the object. -/
theorem C83_condition (var : List (Fin (n + 1))) (X : Fin (n + 1) → ℝ) (hv : ∃ k, k ∉ var) :
    ∃ g, o.condition var (var.map X) = .ok g ∧ (∀ k, k ∈ g.vars ↔ k ∉ var) ∧ g.vars.Pairwise (· < ·) ∧
    g.call (g.vars.map X) = some (o.call X) := by
  obtain ⟨free, hf⟩ : ∃ free, free = (List.finRange (n + 1)).filter fun i => i ∉ var := ⟨_, rfl⟩
  refine ⟨_, if_neg (by simp), fun k => by simp, (List.pairwise_lt_finRange _).filter _, ?_⟩
  have ha := args_eq X var
  rw [← hf] at ha
  have hne : free.map X ≠ [] := by
    obtain ⟨k, hk⟩ := hv
    have : k ∈ free := by rw [hf]; simp [hk]
    intro hn
    rw [List.map_eq_nil_iff] at hn
    simp [hn] at this
  unfold NDFun.call
  simp only [← hf, ha, callOpt_eq, if_neg hne]
  split_ifs with h
  · rfl
  · congr 1
    rw [Noisy.call, if_neg]
    intro hall
    refine h fun p hp => ?_
    rw [List.zip_map_right, List.mem_map] at hp
    obtain ⟨q, hq, rfl⟩ := hp
    have : q.1 = q.2 := by
      obtain ⟨i, hi, e⟩ := List.mem_iff_getElem.1 hq
      rw [← e, List.getElem_zip]
    simp only [Prod.map_fst, Prod.map_snd, id_eq, ← this]
    exact hall q.1

/-- Fixing one variable leaves one dimension less. -/
theorem C83_condition_dim_partial (i : Fin (n + 1)) (x : ℝ) : ∃ g, o.condition [i] [x] = .ok g ∧ g.dim = g.vars.length := by
  refine ⟨_, if_neg (by simp), ?_⟩
  have h1 : ((List.finRange (n + 1)).filter fun k => decide (k ∉ [i])) = (List.finRange (n + 1)).erase i := by
    rw [(List.nodup_finRange _).erase_eq_filter]
    refine List.filter_congr fun k _ => ?_
    by_cases hk : k = i <;> simp [hk]
  simp only [h1]
  rw [List.length_erase_of_mem (List.mem_finRange i), List.length_finRange]
  rfl

/-! ### disagreements -/

/-- noise with the uniform distribution on the unit interval -/
private noncomputable def unit (x : ℝ) : ℝ := open Classical in if x ∈ Icc (0 : ℝ) 1 then 1 else 0

private theorem unit_good {o : Noisy n} (h : o.noise = unit) (ha : o.na = (0 : ℝ)) (hb : o.nb = (1 : ℝ)) : GoodNoise o := by
  have e : (fun x => ENNReal.ofReal (unit x)) = (Icc (0 : ℝ) 1).indicator 1 := by
    ext x
    by_cases hx : x ∈ Icc (0 : ℝ) 1
    · rw [indicator_of_mem hx, unit, if_pos hx]; simp
    · rw [indicator_of_notMem hx, unit, if_neg hx]; simp
  have em : unit = (Icc (0 : ℝ) 1).indicator 1 := by
    ext x
    by_cases hx : x ∈ Icc (0 : ℝ) 1
    · rw [indicator_of_mem hx, unit, if_pos hx]; simp
    · rw [indicator_of_notMem hx, unit, if_neg hx]
  refine ⟨?_, ?_, ?_, ?_⟩
  · rw [h]
    intro x
    unfold unit
    split_ifs <;> norm_num
  · rw [h, em]
    exact measurable_one.indicator measurableSet_Icc
  · rw [h, e, lintegral_indicator_one measurableSet_Icc]
    simp
  · intro x hx
    rw [h, unit, if_neg]
    rintro ⟨h0, h1⟩
    exact hx ⟨by rw [ha]; exact EReal.coe_le_coe_iff.2 h0, by rw [hb]; exact EReal.coe_le_coe_iff.2 h1⟩

/-- the square of a variable with values in `[-1, 1]` -/
private noncomputable def square : Noisy 1 := ⟨fun x => x 0 ^ 2, fun _ => -1, fun _ => 1, unit, (0 : ℝ), (1 : ℝ), none⟩

/-- the difference of two variables with values in `[0, 1]` -/
private noncomputable def diff : Noisy 2 := ⟨fun x => x 0 - x 1, fun _ => 0, fun _ => 1, unit, (0 : ℝ), (1 : ℝ), none⟩

private theorem call_null {o : Noisy n} {x : Fin n → ℝ} {c : ℝ} (hc : ∀ z, z ≠ c → o.call (point x z) = 0) :
    ∫⁻ z, ENNReal.ofReal (o.call (point x z)) = 0 := by
  have : ∀ᵐ z : ℝ, z ≠ c := by
    rw [ae_iff]
    simp
  rw [← lintegral_zero (μ := (volume : Measure ℝ))]
  refine lintegral_congr_ae ?_
  filter_upwards [this] with z hz
  rw [hc z hz]; simp

/-- The range of the value is taken from the ends of the ranges of the variables.  For the square of a variable with values in [-1, 1]
plus noise with values in [0, 1] it is [1, 2], so that at 0 the integral over the value is 0, although eliminating the value gives 1. -/
theorem C83_violated_square : ∃ o : Noisy 1, GoodNoise o ∧ (∀ x, o.f x = x 0 ^ 2) ∧ (∀ i, o.lo i = -1 ∧ o.hi i = 1) ∧ o.fRange = none ∧
    ∫⁻ z, ENNReal.ofReal (o.call (point (fun _ => 0) z)) = 0 ∧ o.eliminate [Fin.last 1] = .ok 1 := by
  refine ⟨square, unit_good rfl rfl rfl, fun _ => rfl, fun _ => ⟨rfl, rfl⟩, rfl, call_null (c := 1) fun z hz => ?_, by simp [Noisy.eliminate]⟩
  rw [Noisy.call]
  split_ifs with h
  · rw [inside_iff] at h
    have h1 : (1 : ℝ) ≤ z := by
      have := h.2.1
      simp only [Noisy.valueLo, Noisy.fAB, square] at this
      rw [← EReal.coe_add, EReal.coe_le_coe_iff] at this
      norm_num at this
      exact this
    rw [pdf_point _ _ (unit_good rfl rfl rfl)]
    change unit (z - 0 ^ 2) = 0
    rw [unit, if_neg]
    rintro ⟨_, h3⟩
    exact hz (by linarith)
  · rfl

/-- The same happens for functions monotone in every variable but not all in one direction: the difference of two variables with
values in [0, 1]. -/
theorem C83_violated_difference : ∃ o : Noisy 2, GoodNoise o ∧ (∀ x, o.f x = x 0 - x 1) ∧ (∀ i, o.lo i = 0 ∧ o.hi i = 1) ∧ o.fRange = none ∧
    ∫⁻ z, ENNReal.ofReal (o.call (point ![0, 1] z)) = 0 ∧ o.eliminate [Fin.last 2] = .ok 1 := by
  refine ⟨diff, unit_good rfl rfl rfl, fun _ => rfl, fun _ => ⟨rfl, rfl⟩, rfl, call_null (c := 0) fun z hz => ?_, by simp [Noisy.eliminate]⟩
  rw [Noisy.call]
  split_ifs with h
  · rw [inside_iff] at h
    have h1 : (0 : ℝ) ≤ z := by
      have := h.2.1
      simp only [Noisy.valueLo, Noisy.fAB, diff] at this
      rw [← EReal.coe_add, EReal.coe_le_coe_iff] at this
      norm_num at this
      exact this
    rw [pdf_point _ _ (unit_good rfl rfl rfl)]
    change unit (z - ((![0, 1] : Fin 2 → ℝ) 0 - (![0, 1] : Fin 2 → ℝ) 1)) = 0
    simp only [Matrix.cons_val_zero, Matrix.cons_val_one]
    rw [unit, if_neg]
    rintro ⟨_, h3⟩
    exact hz (by linarith)
  · rfl

/-- After fixing two variables of a function of two variables the value remains, but the number of dimensions is 2: eliminating the
value raises an exception. -/
theorem C83_violated_two (o : Noisy 2) (x y : ℝ) : ∃ g, o.condition [0, 1] [x, y] = .ok g ∧ g.vars = [Fin.last 2] ∧ g.dim = 2 ∧
    g.eliminateVars 0 = .error .index := by
  refine ⟨_, if_neg (by simp), ?_, rfl, ?_⟩
  · change ((List.finRange 3).filter fun i => decide (i ∉ [(0 : Fin 3), 1])) = [Fin.last 2]
    decide
  · have : ((List.finRange 3).filter fun i => decide (i ∉ [(0 : Fin 3), 1])) = [2] := by decide
    simp only [NDFun.eliminateVars, this]
    rfl

/-! ### concrete cases -/

/-- a function increasing in all variables, with uniform noise -/
private noncomputable def plus : Noisy 2 := ⟨fun x => x 0 + x 1, fun _ => 0, fun _ => 1, unit, (0 : ℝ), (1 : ℝ), none⟩

example : RangeKnown plus ∧ GoodNoise plus ∧ plus.call (point ![1, 1] (5 / 2)) = 1 ∧ plus.call (point ![1, 0] (5 / 2)) = 0 := by
  have hr : RangeKnown plus := Or.inl fun x _ y _ h => add_le_add (h 0) (h 1)
  have hg : GoodNoise plus := unit_good rfl rfl rfl
  have hx : ∀ s t : ℝ, s ∈ Icc (0 : ℝ) 1 → t ∈ Icc (0 : ℝ) 1 → ![s, t] ∈ Icc plus.lo plus.hi := by
    intro s t hs ht
    refine ⟨fun i => ?_, fun i => ?_⟩ <;> fin_cases i <;> simp [plus, hs.1, hs.2, ht.1, ht.2]
  refine ⟨hr, hg, ?_, ?_⟩
  · rw [call_point hg hr (hx 1 1 (by simp) (by simp))]
    simp only [plus, unit, Matrix.cons_val_zero, Matrix.cons_val_one]
    exact if_pos ⟨by norm_num, by norm_num⟩
  · rw [call_point hg hr (hx 1 0 (by simp) (by simp))]
    simp only [plus, unit, Matrix.cons_val_zero, Matrix.cons_val_one]
    exact if_neg fun h => by have := h.2; norm_num at this

/-- uniform variables and uniform noise -/
example : ∃ (Q : Measure (ℝ × (Fin 2 → ℝ))) (_ : IsProbabilityMeasure Q), Describes plus Q Prod.snd Prod.fst := by
  have hg : GoodNoise plus := unit_good rfl rfl rfl
  have h1 : IsProbabilityMeasure ((volume : Measure ℝ).withDensity fun x => ENNReal.ofReal (plus.noise x)) := by
    refine ⟨?_⟩
    rw [withDensity_apply _ MeasurableSet.univ, Measure.restrict_univ, hg.one]
  refine ⟨((volume : Measure ℝ).withDensity fun x => ENNReal.ofReal (plus.noise x)).prod (Measure.dirac fun _ => 1 / 2), inferInstance,
    measurable_snd, measurable_fst, ?_, hg, ?_, ?_, ?_⟩
  · exact (measurable_pi_apply 0).add (measurable_pi_apply 1)
  · rw [Measure.map_fst_prod, measure_univ, one_smul]
  · exact (indepFun_prod (X := id) (Y := id) measurable_id measurable_id).symm
  · refine (Measure.quasiMeasurePreserving_snd (μ := (volume : Measure ℝ).withDensity fun x => ENNReal.ofReal (plus.noise x))
      (ν := Measure.dirac fun _ : Fin 2 => (1 / 2 : ℝ))).ae (p := fun x => x ∈ Icc plus.lo plus.hi) ?_
    refine (ae_dirac_iff (p := fun x => x ∈ Icc plus.lo plus.hi) measurableSet_Icc).2 ?_
    refine ⟨fun i => ?_, fun i => ?_⟩ <;> simp [plus] <;> norm_num

end Pacal.Noisy
