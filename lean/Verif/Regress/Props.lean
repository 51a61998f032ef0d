import Verif.Regress.LemFun
import Mathlib.MeasureTheory.Function.ConditionalExpectation.PullOut
import Mathlib.MeasureTheory.Function.ConditionalExpectation.Real

/-!
C82: the regression functions of a joint density.
-/

open MeasureTheory ProbabilityTheory Set

namespace Pacal.Regress

open Pacal.Depend

variable {Ω : Type*} [MeasurableSpace Ω] {P : Measure Ω} [IsProbabilityMeasure P] {Z : ℕ → Ω → ℝ} {o : Joint} {N : Numerics}

private theorem other_memLp (h : Describes o P Z) {v : ℕ} (hv : v < 2) : MemLp (Z v) 2 P := by
  refine memLp_of_range ?_ (h.range v hv)
  obtain rfl | rfl : v = 0 ∨ v = 1 := by omega
  · exact h.density.meas.1
  · exact h.density.meas.2

private noncomputable def first (q : ℝ → ℝ → ℝ) (x : ℝ) : ℝ := ∫ y, y * q x y

private theorem regfun_mean (h : Describes o P Z) {v : ℕ} (hv : v < 2) : ∀ᵐ ω ∂P, regfun N o v 0 (Z (other v) ω) =
    .ok (first (condF o (other v)) (Z (other v) ω) / mass (condF o (other v)) (Z (other v) ω)) := by
  filter_upwards [regfun_ae (N := N) h hv (type := 0) (by norm_num)] with ω hω
  rw [hω]
  change Except.ok _ = Except.ok _
  congr 1
  simp only [mul_div_assoc']
  rw [intervalIntegral.integral_div, range_integral hv (lo_le_hi h hv)]
  rfl

/-- **C82**: the regression function of type 0 is the conditional expectation of the variable, given the other one. -/
theorem C82_mean (h : Describes o P Z) {v : ℕ} (hv : v < 2) : ∃ r : ℝ → ℝ,
    (∀ᵐ ω ∂P, regfun N o v 0 (Z (other v) ω) = .ok (r (Z (other v) ω))) ∧
    P[Z v | MeasurableSpace.comap (Z (other v)) inferInstance] =ᵐ[P] fun ω => r (Z (other v) ω) := by
  have hd := condF_density h hv
  obtain ⟨q, hq⟩ : ∃ q, q = condF o (other v) := ⟨_, rfl⟩
  refine ⟨fun x => first (condF o (other v)) x / mass (condF o (other v)) x, regfun_mean h hv, ?_⟩
  rw [← hq] at hd ⊢
  have hX := hd.meas.1
  have hi : Integrable (Z v) P := (other_memLp h hv).integrable (by norm_num)
  have fm : Measurable (first q) := by
    have : StronglyMeasurable fun x => ∫ y, y * q x y :=
      StronglyMeasurable.integral_prod_right (f := fun x y : ℝ => y * q x y) (measurable_snd.mul hd.pmeas).stronglyMeasurable
    exact this.measurable
  have rm : Measurable fun x => first q x / mass q x := fm.div (mass_measurable hd)
  -- the density integrals of the ratio
  have fz : ∀ᵐ x, mass q x = 0 → first q x = 0 := by
    filter_upwards [section_integrable hd] with x hx h0
    refine integral_eq_zero_of_ae ?_
    filter_upwards [section_zero hd hx h0] with y hy
    simp [hy]
  have hle : ∀ᵐ x, |first q x / mass q x| ≤ max |o.lo v| |o.hi v| := by
    filter_upwards [section_integrable hd] with x hx
    have h1 : |first q x| ≤ ∫ y, max |o.lo v| |o.hi v| * q x y := by
      suffices hb : ∀ y, ‖y * q x y‖ ≤ max |o.lo v| |o.hi v| * q x y from norm_integral_le_of_norm_le (hx.const_mul (max |o.lo v| |o.hi v|)) (ae_of_all _ hb)
      intro y
      by_cases hy : o.lo v ≤ y ∧ y ≤ o.hi v
      · rw [norm_mul, Real.norm_eq_abs, Real.norm_eq_abs, abs_of_nonneg (hd.nonneg x y)]
        exact mul_le_mul_of_nonneg_right (abs_le_max_abs_abs hy.1 hy.2) (hd.nonneg x y)
      · rw [hq, condF_zero hv hy]; simp
    rw [integral_const_mul] at h1
    rw [abs_div, abs_of_nonneg (mass_nonneg hd x)]
    exact div_le_of_le_mul₀ (mass_nonneg hd x) (le_max_of_le_left (abs_nonneg _)) h1
  have hac : P.map (Z (other v)) ≪ volume := by
    have e : P.map (Z (other v)) = (P.map fun ω => (Z (other v) ω, Z v ω)).map Prod.fst := by
      rw [Measure.map_map measurable_fst (hd.meas.1.prodMk hd.meas.2)]
      rfl
    rw [e, hd.law]
    refine ((withDensity_absolutelyContinuous _ _).map measurable_fst).trans ?_
    rw [Measure.volume_eq_prod]
    exact Measure.quasiMeasurePreserving_fst.absolutelyContinuous
  have hbnd : ∀ᵐ ω ∂P, ‖first q (Z (other v) ω) / mass q (Z (other v) ω)‖ ≤ max |o.lo v| |o.hi v| :=
    ae_of_ae_map hX.aemeasurable (hac.ae_le hle)
  have hri : Integrable (fun ω => first q (Z (other v) ω) / mass q (Z (other v) ω)) P :=
    Integrable.of_bound (rm.comp hX).aestronglyMeasurable _ hbnd
  have hm : MeasurableSpace.comap (Z (other v)) inferInstance ≤ ‹MeasurableSpace Ω› := hX.comap_le
  refine (ae_eq_condExp_of_forall_setIntegral_eq hm hi (fun _ _ _ => hri.integrableOn) ?_ ?_).symm
  · rintro s ⟨B, hB, rfl⟩ -
    have e1 := expect hd (F := fun x _ => first q x / mass q x) (rm.comp measurable_fst) hri hB
    have e2 := expect hd (F := fun _ y => y) measurable_snd hi hB
    rw [e1, e2]
    refine setIntegral_congr_ae hB ?_
    filter_upwards [fz] with x hx _
    rw [integral_const_mul]
    change first q x / mass q x * mass q x = first q x
    by_cases h0 : mass q x = 0
    · rw [h0, mul_zero, hx h0]
    · rw [div_mul_cancel₀ _ h0]
  · exact ((rm.comp (comap_measurable (Z (other v)))).stronglyMeasurable).aestronglyMeasurable

/-- **C82**: it is the best prediction of the variable from the other one, in the mean-square sense. -/
theorem C82_best (h : Describes o P Z) {v : ℕ} (hv : v < 2) {r : ℝ → ℝ}
    (hr : ∀ᵐ ω ∂P, regfun N o v 0 (Z (other v) ω) = .ok (r (Z (other v) ω))) {g : ℝ → ℝ} (hg : Measurable g)
    (hgi : Integrable (fun ω => (Z v ω - g (Z (other v) ω)) ^ 2) P) :
    ∫ ω, (Z v ω - r (Z (other v) ω)) ^ 2 ∂P ≤ ∫ ω, (Z v ω - g (Z (other v) ω)) ^ 2 ∂P := by
  obtain ⟨r', hr', hc⟩ := C82_mean (N := N) h hv
  have hd := condF_density h hv
  have hX := hd.meas.1
  have hm : MeasurableSpace.comap (Z (other v)) inferInstance ≤ ‹MeasurableSpace Ω› := hX.comap_le
  have hYL := other_memLp h hv
  have e : (fun ω => r (Z (other v) ω)) =ᵐ[P] P[Z v | MeasurableSpace.comap (Z (other v)) inferInstance] := by
    refine Filter.EventuallyEq.trans ?_ hc.symm
    filter_upwards [hr, hr'] with ω h1 h2
    exact Except.ok.inj (h1.symm.trans h2)
  obtain ⟨c, hcdef⟩ : ∃ c, c = P[Z v | MeasurableSpace.comap (Z (other v)) inferInstance] := ⟨_, rfl⟩
  rw [← hcdef] at e
  have hcL : MemLp c 2 P := hcdef ▸ MemLp.condExp (by norm_num) hYL
  have hgL : MemLp (fun ω => Z v ω - g (Z (other v) ω)) 2 P :=
    (memLp_two_iff_integrable_sq ((hYL.aestronglyMeasurable).sub (hg.comp hX).aestronglyMeasurable)).2 hgi
  have hdL : MemLp (fun ω => c ω - g (Z (other v) ω)) 2 P := by
    have := (hcL.sub hYL).add hgL
    refine this.ae_eq (ae_of_all _ fun ω => ?_)
    simp only [Pi.add_apply, Pi.sub_apply]
    ring
  have hYc : MemLp (fun ω => Z v ω - c ω) 2 P := hYL.sub hcL
  have hcm : StronglyMeasurable[MeasurableSpace.comap (Z (other v)) inferInstance] c := hcdef ▸ stronglyMeasurable_condExp
  have hgm : StronglyMeasurable[MeasurableSpace.comap (Z (other v)) inferInstance] fun ω => g (Z (other v) ω) :=
    (hg.comp (comap_measurable (Z (other v)))).stronglyMeasurable
  -- the error is orthogonal to the functions of the other variable
  have ho : ∫ ω, (c ω - g (Z (other v) ω)) * (Z v ω - c ω) ∂P = 0 := by
    have hint : Integrable ((fun ω => c ω - g (Z (other v) ω)) * fun ω => Z v ω - c ω) P := hdL.integrable_mul hYc
    have h1 := condExp_mul_of_stronglyMeasurable_left (f := fun ω => c ω - g (Z (other v) ω)) (hcm.sub hgm) hint (hYc.integrable (by norm_num))
    have h2 : P[fun ω => Z v ω - c ω | MeasurableSpace.comap (Z (other v)) inferInstance] =ᵐ[P] 0 := by
      have := condExp_sub (hYL.integrable (by norm_num)) (hcL.integrable (by norm_num))
        (MeasurableSpace.comap (Z (other v)) inferInstance) (μ := P)
      refine this.trans ?_
      rw [condExp_of_stronglyMeasurable hm hcm (hcL.integrable (by norm_num)), hcdef, sub_self]
    have h3 : ∫ ω, ((fun ω => c ω - g (Z (other v) ω)) * fun ω => Z v ω - c ω) ω ∂P = 0 := by
      rw [← integral_condExp hm]
      refine integral_eq_zero_of_ae ?_
      filter_upwards [h1, h2] with ω h1 h2
      rw [h1, Pi.mul_apply, h2]
      simp
    exact h3
  have e1 : ∫ ω, (Z v ω - r (Z (other v) ω)) ^ 2 ∂P = ∫ ω, (Z v ω - c ω) ^ 2 ∂P := by
    refine integral_congr_ae ?_
    filter_upwards [e] with ω hω
    rw [hω]
  have i1 : Integrable (fun ω => (Z v ω - c ω) ^ 2) P := hYc.integrable_sq
  have i2 : Integrable (fun ω => 2 * ((c ω - g (Z (other v) ω)) * (Z v ω - c ω))) P := (hdL.integrable_mul hYc).const_mul 2
  have i3 : Integrable (fun ω => (c ω - g (Z (other v) ω)) ^ 2) P := hdL.integrable_sq
  have e2 : ∫ ω, (Z v ω - g (Z (other v) ω)) ^ 2 ∂P = ∫ ω, (Z v ω - c ω) ^ 2 ∂P + ∫ ω, (c ω - g (Z (other v) ω)) ^ 2 ∂P := by
    have : (fun ω => (Z v ω - g (Z (other v) ω)) ^ 2) = fun ω => ((Z v ω - c ω) ^ 2 + 2 * ((c ω - g (Z (other v) ω)) * (Z v ω - c ω))) +
        (c ω - g (Z (other v) ω)) ^ 2 := by
      ext ω; ring
    have i12 : Integrable (fun ω => (Z v ω - c ω) ^ 2 + 2 * ((c ω - g (Z (other v) ω)) * (Z v ω - c ω))) P := i1.add i2
    rw [this, integral_add i12 i3, integral_add i1 i2, integral_const_mul, ho, mul_zero, add_zero]
  rw [e1, e2]
  have : 0 ≤ ∫ ω, (c ω - g (Z (other v) ω)) ^ 2 ∂P := integral_nonneg fun ω => sq_nonneg _
  linarith

/-- **C82**: the regression functions of types 1, 3 and 4 are the conditional median and the conditional quantiles of levels 0.025 and
0.975: over any set of values of the other variable, the variable is below the function with this probability. -/
theorem C82_quantile (hN : N.Exact) (h : Describes o P Z) {v : ℕ} (hv : v < 2) {type : ℕ} {p : ℝ} (hl : level type = some p) :
    ∃ r : ℝ → ℝ, (∀ᵐ ω ∂P, regfun N o v type (Z (other v) ω) = .ok (r (Z (other v) ω))) ∧
    ∀ B : Set ℝ, MeasurableSet B → P.real {ω | Z (other v) ω ∈ B ∧ Z v ω ≤ r (Z (other v) ω)} = p * P.real (Z (other v) ⁻¹' B) := by
  have hd := condF_density h hv
  have hr := lo_le_hi h hv
  obtain ⟨r, hrdef⟩ : ∃ r : ℝ → ℝ, r = fun x => N.quantile (o.lo v) (o.hi v) (fun y => condF o (other v) x y / mass (condF o (other v)) x) p :=
    ⟨_, rfl⟩
  have hp : 0 < p ∧ p < 1 ∧ type ≤ 4 ∧ ∀ f, summary N type (o.lo v) (o.hi v) f = .ok (N.quantile (o.lo v) (o.hi v) f p) := by
    match type, hl with
    | 1, hl => cases hl; exact ⟨by norm_num, by norm_num, by norm_num, fun _ => rfl⟩
    | 3, hl => cases hl; exact ⟨by norm_num, by norm_num, by norm_num, fun _ => rfl⟩
    | 4, hl => cases hl; exact ⟨by norm_num, by norm_num, by norm_num, fun _ => rfl⟩
  refine ⟨r, ?_, fun B hB => quantile_law hd hp.1.le hp.2.1.le ?_ (section_ae h hv) hB⟩
  · filter_upwards [regfun_ae (N := N) h hv hp.2.2.1] with ω hω
    rw [hω, hp.2.2.2, hrdef]
  · filter_upwards [section_ae h hv, mass_pos hd] with ω hi h0
    have h1 : ∫ y in o.lo v..o.hi v, condF o (other v) (Z (other v) ω) y / mass (condF o (other v)) (Z (other v) ω) = 1 := by
      rw [intervalIntegral.integral_div]
      have := nrm_eq hv hr (Z (other v) ω)
      rw [nrm, other_other hv] at this
      rw [this, div_self h0]
    have hq := hN (o.lo v) (o.hi v) _ p hr (fun y => div_nonneg (hd.nonneg _ y) (mass_nonneg hd _)) h1 hp.1 hp.2.1
    rw [hrdef]
    beta_reduce
    rw [upTo_eq hv hq.1, ← div_eq_iff h0, ← intervalIntegral.integral_div]
    exact hq.2.2

/-! ### a dependent pair -/

/-- the density `x + y` on the unit square -/
private noncomputable def plus : Joint := ⟨2, fun _ => 0, fun _ => 1, fun x y => if x ∈ Icc 0 1 ∧ y ∈ Icc 0 1 then x + y else 0⟩

private theorem plus_condF (x y : ℝ) : condF plus 0 x y = if x ∈ Icc 0 1 ∧ y ∈ Icc 0 1 then x + y else 0 := by
  have e : condF plus 0 x y = if (plus.lo 0 ≤ x ∧ x ≤ plus.hi 0) ∧ plus.lo 1 ≤ y ∧ y ≤ plus.hi 1 then plus.pdf x y else 0 := by
    rw [condF, if_pos rfl, Joint.call]
  rw [e]
  by_cases h : x ∈ Icc (0 : ℝ) 1 ∧ y ∈ Icc (0 : ℝ) 1
  · exact if_pos h
  · rw [if_neg h]
    exact if_neg h

private theorem plus_int {x : ℝ} (hx : x ∈ Icc (0 : ℝ) 1) (F : ℝ → ℝ) :
    ∫ y in (0 : ℝ)..1, F y * condF plus 0 x y = ∫ y in (0 : ℝ)..1, F y * (x + y) := by
  refine intervalIntegral.integral_congr fun y hy => ?_
  rw [uIcc_of_le zero_le_one] at hy
  simp only [plus_condF, if_pos (⟨hx, hy⟩ : x ∈ Icc (0 : ℝ) 1 ∧ y ∈ Icc (0 : ℝ) 1)]

/-- the regression function at 1/2 -/
example : regfun N plus 1 0 (1 / 2) = .ok (7 / 12) := by
  have hx : (1 / 2 : ℝ) ∈ Icc (0 : ℝ) 1 := ⟨by norm_num, by norm_num⟩
  have hn : nrm plus 0 (1 / 2) = 1 := by
    have := plus_int hx fun _ => 1
    simp only [one_mul] at this
    change ∫ y in (0 : ℝ)..1, condF plus 0 (1 / 2) y = 1
    rw [this, intervalIntegral.integral_add (by simp) (by simp)]
    norm_num
  have hm : ∫ y in (0 : ℝ)..1, y * (1 / 2 + y) = 7 / 12 := by
    have : (fun y : ℝ => y * (1 / 2 + y)) = fun y => 1 / 2 * y + y ^ 2 := by ext y; ring
    have i1 : IntervalIntegrable (fun y : ℝ => 1 / 2 * y) volume 0 1 := (continuous_const.mul continuous_id).intervalIntegrable _ _
    have i2 : IntervalIntegrable (fun y : ℝ => y ^ 2) volume 0 1 := (continuous_id.pow 2).intervalIntegrable _ _
    rw [this, intervalIntegral.integral_add i1 i2, intervalIntegral.integral_const_mul, integral_id, integral_pow]
    norm_num
  have hc : condition plus 0 (1 / 2) = .ok fun y => condF plus 0 (1 / 2) y := by
    rw [condition, if_neg (not_not.2 (by exact hx)), if_neg (by rw [hn]; norm_num), hn]
    simp only [div_one]
  rw [regfun, if_neg (by simp [plus]), if_neg (by simp [plus]), if_neg (by simp [plus]), if_neg (by norm_num),
    if_neg (not_not.2 (by exact hx))]
  change Except.bind (condition plus 0 (1 / 2)) _ = _
  rw [hc]
  change Except.ok (∫ y in (0 : ℝ)..1, y * condF plus 0 (1 / 2) y) = _
  rw [plus_int hx fun y => y, hm]

/-- variables with this density -/
example : ∃ (Q : Measure (ℝ × ℝ)) (_ : IsProbabilityMeasure Q), Describes plus Q fun k z => if k = 0 then z.1 else z.2 := by
  have hS : MeasurableSet (Icc (0 : ℝ) 1 ×ˢ Icc (0 : ℝ) 1) := measurableSet_Icc.prod measurableSet_Icc
  have e : (fun z : ℝ × ℝ => plus.pdf z.1 z.2) = (Icc (0 : ℝ) 1 ×ˢ Icc (0 : ℝ) 1).indicator fun z : ℝ × ℝ => z.1 + z.2 := by
    ext z
    by_cases hz : z ∈ Icc (0 : ℝ) 1 ×ˢ Icc (0 : ℝ) 1
    · rw [indicator_of_mem hz]
      exact if_pos hz
    · rw [indicator_of_notMem hz]
      exact if_neg hz
  have hpm : Measurable fun z : ℝ × ℝ => plus.pdf z.1 z.2 := e ▸ (measurable_fst.add measurable_snd).indicator hS
  have hnn : ∀ x y, 0 ≤ plus.pdf x y := by
    intro x y
    change 0 ≤ if x ∈ Icc (0 : ℝ) 1 ∧ y ∈ Icc (0 : ℝ) 1 then x + y else 0
    split_ifs with h
    · exact add_nonneg h.1.1 h.2.1
    · exact le_rfl
  have hci : IntegrableOn (fun z : ℝ × ℝ => z.1 + z.2) (Icc (0 : ℝ) 1 ×ˢ Icc (0 : ℝ) 1) (volume.prod volume) :=
    (continuous_fst.add continuous_snd).continuousOn.integrableOn_compact (isCompact_Icc.prod isCompact_Icc)
  have hQ : IsProbabilityMeasure ((volume : Measure (ℝ × ℝ)).withDensity fun z => ENNReal.ofReal (plus.pdf z.1 z.2)) := by
    refine ⟨?_⟩
    rw [withDensity_apply _ MeasurableSet.univ, Measure.restrict_univ, ← ofReal_integral_eq_lintegral_ofReal]
    · rw [e, integral_indicator hS, Measure.volume_eq_prod, setIntegral_prod _ hci]
      have inner : ∀ x : ℝ, ∫ y in Icc (0 : ℝ) 1, (x + y) = x + 1 / 2 := by
        intro x
        rw [integral_Icc_eq_integral_Ioc, ← intervalIntegral.integral_of_le zero_le_one, intervalIntegral.integral_add (by simp)
          (by simp)]
        norm_num
      simp only [inner]
      rw [integral_Icc_eq_integral_Ioc, ← intervalIntegral.integral_of_le zero_le_one, intervalIntegral.integral_add (by simp)
        (by simp)]
      norm_num
    · rw [e, Measure.volume_eq_prod, integrable_indicator_iff hS]
      exact hci
    · exact ae_of_all _ fun z => hnn z.1 z.2
  refine ⟨_, hQ, rfl, ⟨⟨?_, ?_⟩, hpm, hnn, ?_⟩, ?_⟩
  · simp only [if_true]; exact measurable_fst
  · simp only [one_ne_zero, if_false]; exact measurable_snd
  · simp only [if_true, one_ne_zero, if_false]
    exact Measure.map_id
  · have hae : ∀ᵐ z ∂(volume : Measure (ℝ × ℝ)).withDensity fun z => ENNReal.ofReal (plus.pdf z.1 z.2), z ∈ Icc (0 : ℝ) 1 ×ˢ Icc (0 : ℝ) 1 := by
      rw [ae_withDensity_iff hpm.ennreal_ofReal]
      refine ae_of_all _ fun z hz => ?_
      by_contra hn
      have := congrFun e z
      rw [indicator_of_notMem hn] at this
      rw [this] at hz
      simp at hz
    intro k hk
    filter_upwards [hae] with z hz
    obtain rfl | rfl : k = 0 ∨ k = 1 := by omega
    · exact hz.1
    · exact hz.2

/-- exact quantiles exist -/
example : ∃ N : Numerics, N.Exact := by
  have key : ∀ a b (f : ℝ → ℝ) p, ∃ q, a ≤ b → (∀ y, 0 ≤ f y) → ∫ y in a..b, f y = 1 → 0 < p → p < 1 →
      a ≤ q ∧ q ≤ b ∧ ∫ y in a..q, f y = p := by
    intro a b f p
    by_cases hf : a ≤ b ∧ ∫ y in a..b, f y = 1 ∧ 0 < p ∧ p < 1
    · obtain ⟨hab, h1, hp0, hp1⟩ := hf
      have hi : IntervalIntegrable f volume a b := by
        by_contra hn
        rw [intervalIntegral.integral_undef hn] at h1
        exact zero_ne_one h1
      have hc : ContinuousOn (fun x => ∫ y in a..x, f y) (Icc a b) := by
        have := intervalIntegral.continuousOn_primitive_interval (a := a) (b := b) (f := f) (μ := volume)
          (by rw [uIcc_of_le hab, integrableOn_Icc_iff_integrableOn_Ioc]; exact hi.1)
        rwa [uIcc_of_le hab] at this
      obtain ⟨q, hq, e⟩ := intermediate_value_Icc hab hc (show p ∈ Icc _ _ by
        simp only [intervalIntegral.integral_same, h1]; exact ⟨hp0.le, hp1.le⟩)
      exact ⟨q, fun _ _ _ _ _ => ⟨hq.1, hq.2, e⟩⟩
    · exact ⟨0, fun h1 _ h3 h4 h5 => absurd ⟨h1, h3, h4, h5⟩ hf⟩
  choose Q hQ using key
  exact ⟨⟨Q, fun _ _ _ => 0⟩, hQ⟩

/-- Only joint distributions of two variables, one of them, and the five types give a regression function; everything else is an
error wherever the result is evaluated. -/
theorem C82_refused (N : Numerics) (o : Joint) (v type : ℕ) (x : ℝ) (h : ¬(o.d = 2 ∧ v < 2 ∧ type ≤ 4)) :
    ∃ e, regfun N o v type x = .error e := by
  rw [regfun]
  by_cases h1 : v < o.d
  · rw [if_neg (not_not.2 h1)]
    by_cases h2 : o.d = 1
    · exact ⟨_, if_pos h2⟩
    · rw [if_neg h2]
      by_cases h3 : o.d = 2
      · rw [if_neg (not_not.2 h3)]
        exact ⟨_, if_pos (by by_contra h4; exact h ⟨h3, by omega, by omega⟩)⟩
      · exact ⟨_, if_pos h3⟩
  · exact ⟨_, if_pos h1⟩

example : ¬(({ d := 3, lo := fun _ => 0, hi := fun _ => 1, pdf := fun _ _ => 1 } : Joint).d = 2 ∧ 0 < 2 ∧ 0 ≤ 4) := by decide

end Pacal.Regress
