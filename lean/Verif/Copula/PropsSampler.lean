import Verif.Copula.PropsCond

/-!
C81: samples of an Archimedean copula in two variables.
-/

open MeasureTheory ProbabilityTheory Set

namespace Pacal.Copula

open Pacal.Depend

variable {g : Gen} {Ω Ω' : Type*} [MeasurableSpace Ω] {P : Measure Ω} [IsProbabilityMeasure P] [MeasurableSpace Ω'] {P' : Measure Ω'}
  [IsProbabilityMeasure P'] {Z : ℕ → Ω → ℝ} {m₀ m₁ : MargR} {C : List ℝ → ℝ}

/-- **C81**: a draw of `rand2d_invcdf` has the joint distribution: if the draw `U` has the law of the first variable, the draw `T` is
uniform and independent of it, and `inverse` inverts the conditional distribution functions exactly, the pair `(U, V)` has the
distribution function of the two variables.

Missing from the full statement: the hypotheses about the ranges, as in `C81_cdf_partial`. -/
theorem C81_sampler_partial (hg : Provided g) (hC : ∀ U : List ℝ, U.length = 2 → archCcdf g 2 U = .ok (C U))
    (hJ : Joint [m₀, m₁] C P Z) (hr : ∀ m ∈ [m₀, m₁], m.lo < m.hi)
    (hw : ∃ m ∈ [m₀, m₁], m.lo ≤ Ext.fin 0 ∧ Ext.fin 1 ≤ m.hi) {inverse : (ℝ → Except CErr ℝ) → ℝ → ℝ} (hv : Inverts g m₀ m₁ inverse)
    {U T V : Ω' → ℝ} (hU : Measurable U) (hT : Measurable T) (hi : IndepFun U T P') (hl : P'.map U = P.map (Z 0))
    (ht : P'.map T = volume.restrict (Icc (0 : ℝ) 1)) (hV : ∀ ω, rand2d g [m₀, m₁] inverse [U ω] [T ω] = [(U ω, V ω)])
    (x : ℝ) {y : ℝ} (hy : m₁.lo ≤ Ext.fin y ∧ Ext.fin y ≤ m₁.hi) (hp : 0 < m₁.cdf y) :
    P'.real {ω | U ω ≤ x ∧ V ω ≤ y} = P.real {ω | Z 0 ω ≤ x ∧ Z 1 ω ≤ y} := by
  have hin : ∀ (k : ℕ) (m : MargR) (z : ℝ), ([m₀, m₁].eraseIdx 0)[k]? = some m → [y][k]? = some z →
      m.lo ≤ Ext.fin z ∧ Ext.fin z ≤ m.hi ∧ 0 < m.cdf z := by
    intro k m z hm hz
    have hm' := List.mem_of_getElem? hm
    have hz' := List.mem_of_getElem? hz
    simp only [List.eraseIdx_cons_zero, List.mem_singleton] at hm' hz'
    subst hm' hz'
    exact ⟨hy.1, hy.2, hp⟩
  obtain ⟨h, hh⟩ : ∃ h : ℝ → ℝ, ∀ x, conditionCDF g [m₀, m₁] [0] [x] [y] = .ok (h x) :=
    ⟨_, fun x => conditionCDF_eq rfl rfl hr (fun k m y h1 h2 => ⟨(hin k m y h1 h2).1, (hin k m y h1 h2).2.1⟩) x⟩
  have hcond := C81_cdf_partial (ms := [m₀, m₁]) hg hC hJ (i := 0) (by norm_num) rfl hr hin hw hh
  have hm : Measurable (Z 0) := hJ.meas 0 (by norm_num)
  obtain ⟨hc, hF⟩ := hJ.marg 0 m₀ rfl
  obtain ⟨k, hk, hkv⟩ := cond_version hg.regular (fun m hm => hJ.unit hm) hc.measurable hr hw hy hp hh
  have hF' : m₀.cdf = ⇑(cdf (P.map (Z 0))) := funext hF
  have ho : ∀ᵐ ω ∂P, 0 < m₀.cdf (Z 0 ω) ∧ m₀.cdf (Z 0 ω) < 1 := by
    have := rank_open (P := P) hm (hF' ▸ hc)
    filter_upwards [this] with ω hω
    rw [hF']
    exact hω
  have hS : MeasurableSet {u | 0 < m₀.cdf u ∧ m₀.cdf u < 1} :=
    (measurableSet_lt measurable_const hc.measurable).inter (measurableSet_lt hc.measurable measurable_const)
  have hoμ : ∀ᵐ u ∂P.map (Z 0), 0 < m₀.cdf u ∧ m₀.cdf u < 1 :=
    (ae_map_iff (p := fun u => 0 < m₀.cdf u ∧ m₀.cdf u < 1) hm.aemeasurable hS).2 ho
  have hoU : ∀ᵐ ω ∂P', 0 < m₀.cdf (U ω) ∧ m₀.cdf (U ω) < 1 := ae_of_ae_map hU.aemeasurable (hl ▸ hoμ)
  have htT : ∀ᵐ ω ∂P', 0 < T ω ∧ T ω < 1 := by
    refine ae_of_ae_map (p := fun t => 0 < t ∧ t < 1) hT.aemeasurable ?_
    rw [ht, Measure.restrict_congr_set (Ioo_ae_eq_Icc (μ := volume) (a := (0 : ℝ)) (b := 1)).symm]
    exact ae_restrict_mem measurableSet_Ioo
  have hkr : ∀ᵐ ω ∂P, 0 ≤ k (Z 0 ω) ∧ k (Z 0 ω) ≤ 1 := by
    filter_upwards [ho, hcond.1] with ω h1 h2
    rwa [hkv _ h1.1 h1.2] at h2
  have hkS : MeasurableSet {u | 0 ≤ k u ∧ k u ≤ 1} :=
    (measurableSet_le measurable_const hk).inter (measurableSet_le hk measurable_const)
  have hkμ : ∀ᵐ u ∂P.map (Z 0), 0 ≤ k u ∧ k u ≤ 1 := (ae_map_iff (p := fun u => 0 ≤ k u ∧ k u ≤ 1) hm.aemeasurable hkS).2 hkr
  have e1 : P'.real {ω | U ω ≤ x ∧ V ω ≤ y} = P'.real {ω | U ω ≤ x ∧ T ω ≤ k (U ω)} := by
    refine measureReal_congr ?_
    filter_upwards [hoU, htT] with ω h1 h2
    have hV' : V ω = inverse (fun y => conditionCDF g [m₀, m₁] [0] [U ω] [y]) (T ω) := by
      have := hV ω
      simp only [rand2d, List.zip_cons_cons, List.zip_nil_right, List.map_cons, List.map_nil, List.cons.injEq, Prod.mk.injEq,
        true_and, and_true] at this
      exact this.symm
    have := hv (U ω) y (T ω) (h (U ω)) h1.1 h1.2 h2.1 h2.2 hy.1 hy.2 hp (hh _)
    refine propext (and_congr Iff.rfl ?_)
    rw [hV', this, hkv _ h1.1 h1.2]
  have e2 : {ω | Z 0 ω ≤ x ∧ Z 1 ω ≤ y} = Z 0 ⁻¹' Iic x ∩ others Z 0 [y] := by
    ext ω
    refine and_congr Iff.rfl ⟨fun h k z hz => ?_, fun h => ?_⟩
    · have hk' : k = 0 := by
        have := (List.getElem?_eq_some_iff.1 hz).1
        simpa using this
      subst hk'
      simp only [List.getElem?_cons_zero, Option.some.injEq] at hz
      subst hz
      simpa using h
    · have := h 0 y rfl
      simpa using this
  rw [e1, sample_law hU hT hi ht hk (hl ▸ hkμ), hl, e2, hcond.2 _ measurableSet_Iic, setIntegral_map measurableSet_Iic
    hk.aestronglyMeasurable hm.aemeasurable]
  refine integral_congr_ae (ae_restrict_of_ae ?_)
  filter_upwards [ho] with ω hω
  exact (hkv _ hω.1 hω.2).symm

/-! ### the hypotheses are met -/

private theorem fin_le {x y : ℝ} : Ext.fin x ≤ Ext.fin y ↔ x ≤ y := by simp [Ext.fin]

private theorem fin_lt {x y : ℝ} : Ext.fin x < Ext.fin y ↔ x < y := by simp [Ext.fin]

private theorem wide : ∀ m ∈ [unifR 0, unifR 0], m.lo < m.hi := by
  intro m hm
  simp only [List.mem_cons, List.not_mem_nil, or_false, or_self] at hm
  subst hm
  exact fin_lt.2 (by norm_num)

private theorem value {x y : ℝ} (hx : 0 < x ∧ x < 1) (hy : 0 < y ∧ y ≤ 1) :
    conditionCDF (clayton 1) [unifR 0, unifR 0] [0] [x] [y] = .ok (((1 + x * (y⁻¹ - 1)) ^ 2)⁻¹) := by
  have hin : ∀ (k : ℕ) (m : MargR) (z : ℝ), ([unifR 0, unifR 0].eraseIdx 0)[k]? = some m → [y][k]? = some z →
      m.lo ≤ Ext.fin z ∧ Ext.fin z ≤ m.hi := by
    intro k m z hm hz
    have hm' := List.mem_of_getElem? hm
    have hz' := List.mem_of_getElem? hz
    simp only [List.eraseIdx_cons_zero, List.mem_singleton] at hm' hz'
    subst hm' hz'
    exact ⟨fin_le.2 hy.1.le, fin_le.2 (by linarith [hy.2])⟩
  have hu : ∀ m ∈ [unifR 0, unifR 0], ∀ x, 0 ≤ m.cdf x ∧ m.cdf x ≤ 1 := by
    intro m hm x
    simp only [List.mem_cons, List.not_mem_nil, or_false, or_self] at hm
    subst hm
    exact clip_mem _
  rw [conditionCDF_eq (i := 0) rfl rfl wide hin, ccond_eq (i := 0) rfl rfl hu
    ⟨unifR 0, by simp, fin_le.2 le_rfl, fin_le.2 (by norm_num)⟩]
  have cx : (unifR 0).cdf x = x := by
    change clip (x - 0) = x
    rw [clip, sub_zero, min_eq_left hx.2.le, max_eq_right hx.1.le]
  have cy : (unifR 0).cdf y = y := by
    change clip (y - 0) = y
    rw [clip, sub_zero, min_eq_left hy.2, max_eq_right hy.1.le]
  simp only [List.eraseIdx_cons_zero, List.zipWith_cons_cons, List.zipWith_nil_left, List.insertIdx_zero, cx, cy]
  congr 1
  have e : ∀ t : ℝ, symC (clayton 1) [t, y] = (t⁻¹ + (y⁻¹ - 1))⁻¹ := by
    intro t
    simp only [symC, clayton, List.foldl_cons, List.foldl_nil, Real.rpow_neg_one]
    rw [show (-1 : ℝ) / 1 = -1 by norm_num, Real.rpow_neg_one]
    congr 1
    ring
  change deriv (fun t => symC (clayton 1) [t, y]) x = _
  simp only [e]
  have hy1 : 0 ≤ y⁻¹ - 1 := by
    have := (one_le_inv₀ hy.1).2 hy.2
    linarith
  have hx1 : 0 < x⁻¹ := inv_pos.2 hx.1
  have := ((hasDerivAt_inv hx.1.ne').add_const (y⁻¹ - 1)).inv (by positivity)
  rw [show (fun t : ℝ => (t⁻¹ + (y⁻¹ - 1))⁻¹) = (fun t : ℝ => t⁻¹ + (y⁻¹ - 1))⁻¹ from rfl, this.deriv]
  generalize y⁻¹ - 1 = c at hy1
  have h0 := hx.1.ne'
  have h1 : 1 + x * c ≠ 0 := by have := mul_nonneg hx.1.le hy1; linarith
  have h2 : x⁻¹ + c = (1 + x * c) / x := by field_simp
  rw [h2]
  field_simp

private noncomputable def inverseOf (f : ℝ → Except CErr ℝ) (t : ℝ) : ℝ := sInf {y | 0 < y ∧ y ≤ 1 ∧ ∃ w, f y = .ok w ∧ t ≤ w}

private theorem inverseOf_inverts : Inverts (clayton 1) (unifR 0) (unifR 0) inverseOf := by
  intro x y t w hx0 hx1 ht0 ht1 hylo hyhi hyp hw
  have hx : 0 < x ∧ x < 1 := by
    change 0 < clip (x - 0) at hx0
    change clip (x - 0) < 1 at hx1
    rw [clip, sub_zero] at hx0 hx1
    refine ⟨?_, ?_⟩
    · rcases lt_max_iff.1 hx0 with h | h
      · exact absurd h (lt_irrefl _)
      · exact (lt_min_iff.1 h).1
    · rcases min_lt_iff.1 ((le_max_right _ _).trans_lt hx1) with h | h
      · exact h
      · exact absurd h (lt_irrefl _)
  have hy : 0 < y ∧ y ≤ 1 := by
    refine ⟨?_, ?_⟩
    · change 0 < clip (y - 0) at hyp
      rw [clip, sub_zero] at hyp
      rcases lt_max_iff.1 hyp with h | h
      · exact absurd h (lt_irrefl _)
      · exact (lt_min_iff.1 h).1
    · have := fin_le.1 hyhi
      linarith
  have hs : 0 < √t := Real.sqrt_pos.2 ht0
  have hs1 : √t < 1 := by rw [Real.sqrt_lt' one_pos]; simpa using ht1
  obtain ⟨c, hc⟩ : ∃ c, c = 1 + ((√t)⁻¹ - 1) / x := ⟨_, rfl⟩
  have hc1 : 1 < c := by
    have : 0 < (√t)⁻¹ - 1 := by
      have := (one_lt_inv₀ hs).2 hs1
      linarith
    have := div_pos this hx.1
    linarith
  have key : ∀ z, 0 < z → z ≤ 1 → (t ≤ ((1 + x * (z⁻¹ - 1)) ^ 2)⁻¹ ↔ c⁻¹ ≤ z) := by
    intro z hz0 hz1
    have h1 : 0 ≤ z⁻¹ - 1 := by
      have := (one_le_inv₀ hz0).2 hz1
      linarith
    have h2 : 0 < 1 + x * (z⁻¹ - 1) := by have := mul_nonneg hx.1.le h1; linarith
    rw [le_inv_comm₀ ht0 (by positivity), inv_le_comm₀ (by linarith) hz0]
    have h3 : t⁻¹ = ((√t)⁻¹) ^ 2 := by rw [inv_pow, Real.sq_sqrt ht0.le]
    rw [h3, sq_le_sq₀ h2.le (inv_pos.2 hs).le, hc, ← sub_le_iff_le_add', le_div_iff₀ hx.1, mul_comm, ← le_sub_iff_add_le']
  have hci : 0 < c⁻¹ ∧ c⁻¹ ≤ 1 := ⟨inv_pos.2 (by linarith), inv_le_one_of_one_le₀ hc1.le⟩
  have hset : {y | 0 < y ∧ y ≤ 1 ∧ ∃ w, conditionCDF (clayton 1) [unifR 0, unifR 0] [0] [x] [y] = .ok w ∧ t ≤ w} = Icc c⁻¹ 1 := by
    ext z
    constructor
    · rintro ⟨h0, h1, w, hw, htw⟩
      rw [value hx ⟨h0, h1⟩, Except.ok.injEq] at hw
      rw [← hw] at htw
      exact ⟨(key z h0 h1).1 htw, h1⟩
    · rintro ⟨h0, h1⟩
      have hz := hci.1.trans_le h0
      exact ⟨hz, h1, _, value hx ⟨hz, h1⟩, (key z hz h1).2 h0⟩
  rw [value hx hy, Except.ok.injEq] at hw
  rw [inverseOf, hset, csInf_Icc hci.2, ← hw, key y hy.1 hy.2]

/-- a sample of the copula of Clayton with uniform marginals has the joint distribution function `1 / (1 / x + 1 / y - 1)` -/
example : ∃ (Q : Measure (ℝ × ℝ)) (_ : IsProbabilityMeasure Q) (V : ℝ × ℝ → ℝ) (inverse : (ℝ → Except CErr ℝ) → ℝ → ℝ),
    (∀ z, rand2d (clayton 1) [unifR 0, unifR 0] inverse [z.1] [z.2] = [(z.1, V z)]) ∧
    ∀ x y, 0 < x → x ≤ 1 → 0 < y → y ≤ 1 → Q.real {z | z.1 ≤ x ∧ V z ≤ y} = (x⁻¹ + y⁻¹ - 1)⁻¹ := by
  have hg : Provided (clayton 1) := Or.inl ⟨1, by norm_num, rfl⟩
  obtain ⟨Q₀, hQ, hJ⟩ := arch_joint hg.regular 0
  have hI : IsProbabilityMeasure (volume.restrict (Icc (0 : ℝ) 1)) := ⟨by simp⟩
  have m0 : Measurable fun z : ℝ × ℝ => 0 + if (0 : ℕ) = 0 then z.1 else z.2 := hJ.meas 0 (by norm_num)
  have hp : IsProbabilityMeasure (Q₀.map fun z : ℝ × ℝ => 0 + if (0 : ℕ) = 0 then z.1 else z.2) :=
    Measure.isProbabilityMeasure_map m0.aemeasurable
  refine ⟨(Q₀.map fun z : ℝ × ℝ => 0 + if (0 : ℕ) = 0 then z.1 else z.2).prod (volume.restrict (Icc (0 : ℝ) 1)), inferInstance,
    fun z => inverseOf (fun y => conditionCDF (clayton 1) [unifR 0, unifR 0] [0] [z.1] [y]) z.2, inverseOf, fun z => rfl, ?_⟩
  intro x y hx0 hx1 hy0 hy1
  have cy : (unifR 0).cdf y = y := by
    change clip (y - 0) = y
    rw [clip, sub_zero, min_eq_left hy1, max_eq_right hy0.le]
  have cx : (unifR 0).cdf x = x := by
    change clip (x - 0) = x
    rw [clip, sub_zero, min_eq_left hx1, max_eq_right hx0.le]
  have h := C81_sampler_partial hg (fun U hU => archCcdf_ok hU) hJ wide ⟨unifR 0, by simp, fin_le.2 le_rfl, fin_le.2 (by norm_num)⟩
    inverseOf_inverts (U := Prod.fst) (T := Prod.snd)
    (P' := (Q₀.map fun z : ℝ × ℝ => 0 + if (0 : ℕ) = 0 then z.1 else z.2).prod (volume.restrict (Icc (0 : ℝ) 1)))
    (V := fun z => inverseOf (fun y => conditionCDF (clayton 1) [unifR 0, unifR 0] [0] [z.1] [y]) z.2) measurable_fst measurable_snd
    (indepFun_prod measurable_id measurable_id) (by rw [Measure.map_fst_prod, measure_univ, one_smul])
    (by rw [Measure.map_snd_prod, measure_univ, one_smul]) (fun _ => rfl) x
    (y := y) ⟨fin_le.2 hy0.le, fin_le.2 (by linarith)⟩ (by rw [cy]; exact hy0)
  refine h.trans ?_
  have hs := hJ.sklar [x, y] rfl
  have e : {z : ℝ × ℝ | ∀ (k : ℕ) w, [x, y][k]? = some w → (0 + if k = 0 then z.1 else z.2) ≤ w} =
      {z : ℝ × ℝ | (0 + if (0 : ℕ) = 0 then z.1 else z.2) ≤ x ∧ (0 + if (1 : ℕ) = 0 then z.1 else z.2) ≤ y} := by
    ext z
    refine ⟨fun h => ⟨h 0 x rfl, h 1 y rfl⟩, ?_⟩
    rintro ⟨h0, h1⟩ k w hw
    match k, hw with
    | 0, hw =>
      simp only [List.getElem?_cons_zero, Option.some.injEq] at hw
      subst hw
      exact h0
    | 1, hw =>
      simp only [List.getElem?_cons_succ, List.getElem?_cons_zero, Option.some.injEq] at hw
      subst hw
      exact h1
  rw [e] at hs
  refine hs.trans ?_
  have e2 : margCdf ([unifR 0, unifR 0].map MargR.toMarg) [x, y] = [(unifR 0).cdf x, (unifR 0).cdf y] := rfl
  rw [e2, cx, cy, val_two hg.regular hx0 hx1 hy0 hy1]
  simp only [clayton, Real.rpow_neg_one]
  rw [show (-1 : ℝ) / 1 = -1 by norm_num, Real.rpow_neg_one]
  congr 1
  ring

end Pacal.Copula
