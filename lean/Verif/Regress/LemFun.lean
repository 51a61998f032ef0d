import Verif.Regress.LemQuant

/-!
Helper lemmas: the joint density as the code sees it, and the values of `regfun`.
-/

open MeasureTheory ProbabilityTheory Set

namespace Pacal.Regress

open Pacal.Depend

variable {Ω : Type*} [MeasurableSpace Ω] {P : Measure Ω} [IsProbabilityMeasure P] {Z : ℕ → Ω → ℝ} {o : Joint} {N : Numerics}

/-- cutting a density to a set that carries the law -/
theorem call_density (h : Describes o P Z) : HasDensity o.call P (Z 0) (Z 1) := by
  obtain ⟨S, hS⟩ : ∃ S : Set (ℝ × ℝ), S = Icc (o.lo 0) (o.hi 0) ×ˢ Icc (o.lo 1) (o.hi 1) := ⟨_, rfl⟩
  have hSm : MeasurableSet S := hS ▸ measurableSet_Icc.prod measurableSet_Icc
  have hd := h.density
  have hm : Measurable fun ω => (Z 0 ω, Z 1 ω) := hd.meas.1.prodMk hd.meas.2
  have e : (fun z : ℝ × ℝ => o.call z.1 z.2) = S.indicator fun z : ℝ × ℝ => o.pdf z.1 z.2 := by
    ext z
    rw [Joint.call, hS]
    by_cases hz : z ∈ Icc (o.lo 0) (o.hi 0) ×ˢ Icc (o.lo 1) (o.hi 1)
    · rw [indicator_of_mem hz, if_pos (⟨hz.1, hz.2⟩ : (o.lo 0 ≤ z.1 ∧ z.1 ≤ o.hi 0) ∧ o.lo 1 ≤ z.2 ∧ z.2 ≤ o.hi 1)]
    · rw [indicator_of_notMem hz, if_neg fun hc : (o.lo 0 ≤ z.1 ∧ z.1 ≤ o.hi 0) ∧ o.lo 1 ≤ z.2 ∧ z.2 ≤ o.hi 1 => hz ⟨hc.1, hc.2⟩]
  refine ⟨hd.meas, ?_, fun x y => ?_, ?_⟩
  · rw [e]; exact hd.pmeas.indicator hSm
  · rw [Joint.call]
    split_ifs
    · exact hd.nonneg x y
    · exact le_rfl
  · have hae : ∀ᵐ z ∂P.map fun ω => (Z 0 ω, Z 1 ω), z ∈ S := by
      refine (ae_map_iff (p := fun z => z ∈ S) hm.aemeasurable hSm).2 ?_
      filter_upwards [h.range 0 (by norm_num), h.range 1 (by norm_num)] with ω h1 h2
      rw [hS]
      exact ⟨h1, h2⟩
    rw [← Measure.restrict_eq_self_of_ae_mem hae, hd.law, restrict_withDensity hSm]
    rw [← withDensity_indicator hSm]
    congr 1
    ext z
    have := congrFun e z
    beta_reduce at this
    rw [this]
    by_cases hz : z ∈ S <;> simp [indicator, hz]

theorem condF_density (h : Describes o P Z) {v : ℕ} (hv : v < 2) : HasDensity (condF o (other v)) P (Z (other v)) (Z v) := by
  have hd := call_density h
  obtain rfl | rfl : v = 0 ∨ v = 1 := by omega
  · refine ⟨⟨hd.meas.2, hd.meas.1⟩, ?_, fun x y => ?_, ?_⟩
    · exact hd.pmeas.comp measurable_swap
    · exact hd.nonneg y x
    · have hm : Measurable fun ω => (Z 0 ω, Z 1 ω) := hd.meas.1.prodMk hd.meas.2
      have e1 : (fun ω => (Z (other 0) ω, Z 0 ω)) = Prod.swap ∘ fun ω => (Z 0 ω, Z 1 ω) := rfl
      rw [e1, ← Measure.map_map measurable_swap hm, hd.law]
      have hp : Measurable fun z : ℝ × ℝ => ENNReal.ofReal (o.call z.1 z.2) := hd.pmeas.ennreal_ofReal
      ext S hS
      rw [Measure.map_apply measurable_swap hS, withDensity_apply _ (measurable_swap hS), withDensity_apply _ hS,
        Measure.volume_eq_prod]
      have hmp : MeasurePreserving (Prod.swap : ℝ × ℝ → ℝ × ℝ) (volume.prod volume) (volume.prod volume) :=
        Measure.measurePreserving_swap
      have := hmp.setLIntegral_comp_preimage hS (f := fun z : ℝ × ℝ => ENNReal.ofReal (o.call z.2 z.1))
        (hp.comp measurable_swap)
      exact this
  · exact hd

theorem condF_zero {v : ℕ} (hv : v < 2) {x y : ℝ} (h : ¬(o.lo v ≤ y ∧ y ≤ o.hi v)) : condF o (other v) x y = 0 := by
  obtain rfl | rfl : v = 0 ∨ v = 1 := by omega
  · change o.call y x = 0
    rw [Joint.call, if_neg fun hc => h hc.1]
  · change o.call x y = 0
    rw [Joint.call, if_neg fun hc => h hc.2]

theorem other_other {v : ℕ} (hv : v < 2) : other (other v) = v := by
  obtain rfl | rfl : v = 0 ∨ v = 1 := by omega
  · rfl
  · rfl

theorem other_lt (v : ℕ) : other v < 2 := by
  unfold other; split_ifs <;> norm_num

/-- integrals over the range are integrals over the line -/
theorem range_integral {v : ℕ} (hv : v < 2) (hr : o.lo v ≤ o.hi v) (x : ℝ) (F : ℝ → ℝ) :
    ∫ y in o.lo v..o.hi v, F y * condF o (other v) x y = ∫ y, F y * condF o (other v) x y := by
  rw [intervalIntegral.integral_of_le hr, ← integral_Icc_eq_integral_Ioc, setIntegral_eq_integral_of_forall_compl_eq_zero]
  intro y hy
  rw [condF_zero hv hy, mul_zero]

theorem nrm_eq {v : ℕ} (hv : v < 2) (hr : o.lo v ≤ o.hi v) (x : ℝ) : nrm o (other v) x = mass (condF o (other v)) x := by
  rw [nrm, other_other hv, mass]
  have := range_integral hv hr x fun _ => 1
  simpa only [one_mul] using this

theorem upTo_eq {v : ℕ} (hv : v < 2) {x s : ℝ} (hr : o.lo v ≤ s) :
    upTo (condF o (other v)) x s = ∫ y in o.lo v..s, condF o (other v) x y := by
  rw [upTo, intervalIntegral.integral_of_le hr, ← integral_Icc_eq_integral_Ioc]
  refine setIntegral_eq_of_subset_of_forall_sdiff_eq_zero measurableSet_Iic (fun y hy => hy.2) fun y hy => ?_
  refine condF_zero hv fun hc => hy.2 ⟨hc.1, hy.1⟩

theorem lo_le_hi (h : Describes o P Z) {v : ℕ} (hv : v < 2) : o.lo v ≤ o.hi v := le_of_ae (h.range v hv)

/-- almost surely `regfun` returns the number computed from the conditional density -/
theorem regfun_ae (h : Describes o P Z) {v : ℕ} (hv : v < 2) {type : ℕ} (ht : type ≤ 4) : ∀ᵐ ω ∂P,
    regfun N o v type (Z (other v) ω) = summary N type (o.lo v) (o.hi v) fun y =>
      condF o (other v) (Z (other v) ω) y / mass (condF o (other v)) (Z (other v) ω) := by
  filter_upwards [h.range (other v) (other_lt v), mass_pos (condF_density h hv)] with ω hω h0
  have hr := lo_le_hi h hv
  rw [regfun, if_neg (by rw [h.two]; omega), if_neg (by rw [h.two]; omega), if_neg (by rw [h.two]; omega), if_neg (by omega),
    if_neg (not_not.2 hω), condition, if_neg (not_not.2 hω), if_neg (by rw [nrm_eq hv hr]; exact h0), nrm_eq hv hr]
  rfl

theorem section_ae (h : Describes o P Z) {v : ℕ} (hv : v < 2) : ∀ᵐ ω ∂P, Integrable (condF o (other v) (Z (other v) ω)) := by
  have hd := condF_density h hv
  have hs := section_integrable hd
  have hac : P.map (Z (other v)) ≪ volume := by
    have e : P.map (Z (other v)) = (P.map fun ω => (Z (other v) ω, Z v ω)).map Prod.fst := by
      rw [Measure.map_map measurable_fst (hd.meas.1.prodMk hd.meas.2)]
      rfl
    rw [e, hd.law]
    have : ((volume : Measure (ℝ × ℝ)).withDensity fun z => ENNReal.ofReal (condF o (other v) z.1 z.2)).map Prod.fst ≪
        (volume : Measure (ℝ × ℝ)).map Prod.fst := (withDensity_absolutelyContinuous _ _).map measurable_fst
    refine this.trans ?_
    rw [Measure.volume_eq_prod]
    exact Measure.quasiMeasurePreserving_fst.absolutelyContinuous
  exact ae_of_ae_map hd.meas.1.aemeasurable (hac.ae_le hs)

end Pacal.Regress
