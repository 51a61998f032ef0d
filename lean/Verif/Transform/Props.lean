import Verif.Transform.Lemmas

/-!
# Property C42: variable transforms are invertible changes of variable

The specification `IsChange` is in `Verif.Transform.Lemmas`.
-/

namespace Pacal
open Transform Set

/-- **C42**, the transform of the whole line. -/
theorem C42_reciprocal_pminf : IsChange recPM univ where
  order := by norm_num [recPM]
  maps _ _ := mem_univ _
  mapsBack x _ := by
    rw [recPM_dom]
    simp only [recPM]
    have h : 0 < 1 + |x| := by positivity
    rw [abs_div, abs_of_pos h, div_lt_one h]; linarith
  left t ht := by
    rw [recPM_dom] at ht
    have h1 : 0 < 1 - |t| := by linarith
    have e := recPM_inv_abs ht
    have e' : recPM.varChange (recPM.inv t) = recPM.inv t / (1 + |recPM.inv t|) := rfl
    rw [e', e]
    simp only [recPM]
    have : 1 + |t| / (1 - |t|) = 1 / (1 - |t|) := by field_simp; ring
    rw [this]
    field_simp
  right x _ := by
    have h : 0 < 1 + |x| := by positivity
    simp only [recPM]
    rw [abs_div, abs_of_pos h]
    have : 1 - |x| / (1 + |x|) = 1 / (1 + |x|) := by field_simp; ring
    rw [this]
    field_simp
  mono := by
    left
    intro s hs t ht hst
    rw [recPM_dom, abs_lt] at hs ht
    simp only [recPM]
    rcases le_or_gt 0 s with h | h
    · rw [abs_of_nonneg h, abs_of_nonneg (h.trans hst.le), div_lt_div_iff₀ (by linarith) (by linarith)]
      nlinarith
    · rcases le_or_gt 0 t with h' | h'
      · have h1 : s / (1 - |s|) < 0 := div_neg_of_neg_of_pos h (by rw [abs_of_neg h]; linarith)
        have h2 : 0 ≤ t / (1 - |t|) := div_nonneg h' (by rw [abs_of_nonneg h']; linarith)
        linarith
      · rw [abs_of_neg h, abs_of_neg h', div_lt_div_iff₀ (by linarith) (by linarith)]
        nlinarith
  deriv t ht := by
    rw [recPM_dom] at ht
    have h1 : 0 < 1 - |t| := by linarith
    refine ⟨1 / ((1 - |t|) * (1 - |t|)), ?_, ?_⟩
    · rcases lt_trichotomy t 0 with h | h | h
      · have : recPM.inv =ᶠ[nhds t] fun t => t / (1 + t) := by
          filter_upwards [Iio_mem_nhds h] with u hu
          simp only [recPM]; rw [abs_of_neg hu]; ring_nf
        refine HasDerivAt.congr_of_eventuallyEq ?_ this
        rw [abs_of_neg h] at h1 ⊢
        have h1' : 1 + t ≠ 0 := by linarith
        have := (hasDerivAt_id' t).fun_div ((hasDerivAt_id' t).const_add 1) h1'
        refine this.congr_deriv ?_
        field_simp
        ring
      · subst h
        have e : recPM.inv = fun t => t * (1 - |t|)⁻¹ := by funext t; simp only [recPM]; rw [div_eq_mul_inv]
        rw [e, abs_zero]
        have hc : ContinuousAt (fun t : ℝ => (1 - |t|)⁻¹) 0 :=
          ContinuousAt.inv₀ (by fun_prop) (by simp)
        rw [hasDerivAt_iff_tendsto_slope]
        have : Filter.Tendsto (fun t : ℝ => (1 - |t|)⁻¹) (nhdsWithin 0 {0}ᶜ) (nhds (1 / ((1 - 0) * (1 - 0)))) := by
          have := hc.tendsto.mono_left (nhdsWithin_le_nhds (s := {0}ᶜ))
          simpa using this
        refine this.congr' ?_
        filter_upwards [self_mem_nhdsWithin] with u hu
        simp only [mem_compl_iff, mem_singleton_iff] at hu
        simp [slope_def_field, hu]
      · have : recPM.inv =ᶠ[nhds t] fun t => t / (1 - t) := by
          filter_upwards [Ioi_mem_nhds h] with u hu
          simp only [recPM]; rw [abs_of_pos hu]
        refine HasDerivAt.congr_of_eventuallyEq ?_ this
        rw [abs_of_pos h] at h1 ⊢
        have := (hasDerivAt_id' t).fun_div ((hasDerivAt_id' t).const_sub 1) h1.ne'
        refine this.congr_deriv ?_
        field_simp
        ring
    · simp only [recPM]
      exact abs_of_pos (by positivity)

/-- **C42**, `[L, ∞)`: every `L` and every positive exponent. -/
theorem C42_reciprocal_pinf (L : ℝ) {e : ℝ} (he : 0 < e) : IsChange (recP L e none) (Ici L) where
  order := by simp [recP]
  maps t ht := by rw [recP_dom_none] at ht; exact (recP_left none he ht.1 ht.2).1
  mapsBack x hx := by rw [recP_dom_none]; exact ⟨recPVar_pos hx, recPVar_le he hx⟩
  left t ht := by rw [recP_dom_none] at ht; exact (recP_left none he ht.1 ht.2).2
  right x hx := recP_right none he hx
  mono := .inr fun s hs t _ hst => by rw [recP_dom_none] at hs; exact recP_anti none he hs.1 hst
  deriv t ht := by rw [recP_dom_none] at ht; exact recP_hasDeriv none he ht.1

/-- **C42**, `[L, U]` with the same transform. -/
theorem C42_reciprocal_pinf_finite {L U : ℝ} (hU : L ≤ U) {e : ℝ} (he : 0 < e) :
    IsChange (recP L e (some U)) (Icc L U) where
  order := recPVar_le he hU
  maps t ht := by
    rw [recP_dom_some] at ht
    have ht0 : 0 < t := (recPVar_pos hU).trans_le ht.1
    refine ⟨(recP_left _ he ht0 ht.2).1, ?_⟩
    rcases eq_or_lt_of_le ht.1 with h | h
    · rw [← h]; exact (recP_right (some U) he hU).le
    · have := recP_anti (L := L) (some U) he (recPVar_pos hU) h
      have h2 : (recP L e (some U)).inv (recPVar L e U) = U := recP_right (some U) he hU
      rw [h2] at this; exact this.le
  mapsBack x hx := by
    rw [recP_dom_some]
    exact ⟨recPVar_anti he hx.1 hx.2, recPVar_le he hx.1⟩
  left t ht := by
    rw [recP_dom_some] at ht
    exact (recP_left _ he ((recPVar_pos hU).trans_le ht.1) ht.2).2
  right x hx := recP_right _ he hx.1
  mono := .inr fun s hs t _ hst => by
    rw [recP_dom_some] at hs; exact recP_anti _ he ((recPVar_pos hU).trans_le hs.1) hst
  deriv t ht := by rw [recP_dom_some] at ht; exact recP_hasDeriv _ he ((recPVar_pos hU).trans_le ht.1)

/-- **C42**, `(-∞, U]`. -/
theorem C42_reciprocal_minf (U : ℝ) {e : ℝ} (he : 0 < e) : IsChange (recM U e none) (Iic U) := by
  have := (C42_reciprocal_pinf (-U) he).mirror (wt := recM U e none) rfl rfl rfl (recM_inv_eq U e none none)
    (fun x hx => recMVar_eq (by simpa using hx)) (recM_deriv_eq U e none none)
  convert this using 1
  ext x; simp

/-- **C42**, `[L, U]` with the mirrored transform. -/
theorem C42_reciprocal_minf_finite {L U : ℝ} (hU : L ≤ U) {e : ℝ} (he : 0 < e) :
    IsChange (recM U e (some L)) (Icc L U) := by
  have := (C42_reciprocal_pinf_finite (L := -U) (U := -L) (by linarith) he).mirror (wt := recM U e (some L))
    (recMVar_eq hU) rfl rfl (recM_inv_eq U e (some L) (some (-L)))
    (fun x hx => recMVar_eq (by have := hx.1; linarith)) (recM_deriv_eq U e (some L) (some (-L)))
  convert this using 1
  ext x
  simp only [mem_Icc, mem_ofPred_eq]
  constructor <;> rintro ⟨h1, h2⟩ <;> constructor <;> linarith

/-- **C42**, the algebraic transform of the whole line. -/
theorem C42_algebraic_pminf {c : ℝ} (hc : 0 < c) : IsChange (algPM c) univ := by
  have hleft : ∀ t, -1 < t → t < 1 → (algPM c).varChange ((algPM c).inv t) = t := by
    intro t h1 h2
    have hp : 0 < 1 - t * t := by nlinarith
    have hs : 0 < √(1 - t * t) := Real.sqrt_pos.2 hp
    have hsq : √(1 - t * t) ^ 2 = 1 - t * t := Real.sq_sqrt hp.le
    simp only [algPM]
    have : c ^ 2 + (c * t / √(1 - t * t)) ^ 2 = (c / √(1 - t * t)) ^ 2 := by
      have hne : 1 - t * t ≠ 0 := hp.ne'
      rw [div_pow, div_pow, hsq, eq_div_iff hne, add_mul, div_mul_cancel₀ _ hne]; ring
    rw [this, Real.sqrt_sq (by positivity), div_div_div_cancel_right₀ hs.ne', mul_div_cancel_left₀ _ hc.ne']
  refine ⟨by norm_num [algPM], fun _ _ => mem_univ _, ?_, ?_, ?_, ?_, ?_⟩
  · intro x _
    rw [algPM_dom]
    simp only [algPM]
    have hh : |x| < √(c ^ 2 + x ^ 2) := by
      apply Real.lt_sqrt_of_sq_lt
      rw [sq_abs]; nlinarith
    have hp : 0 < √(c ^ 2 + x ^ 2) := (abs_nonneg x).trans_lt hh
    obtain ⟨h1, h2⟩ := abs_lt.1 hh
    constructor
    · rw [lt_div_iff₀ hp]; linarith
    · rw [div_lt_one hp]; exact h2
  · intro t ht
    rw [algPM_dom] at ht
    exact hleft t ht.1 ht.2
  · intro x _
    have hp : 0 < c ^ 2 + x ^ 2 := by positivity
    have hs : 0 < √(c ^ 2 + x ^ 2) := Real.sqrt_pos.2 hp
    have hsq : √(c ^ 2 + x ^ 2) * √(c ^ 2 + x ^ 2) = c ^ 2 + x ^ 2 := Real.mul_self_sqrt hp.le
    simp only [algPM]
    have : 1 - x / √(c ^ 2 + x ^ 2) * (x / √(c ^ 2 + x ^ 2)) = (c / √(c ^ 2 + x ^ 2)) ^ 2 := by
      rw [div_mul_div_comm, hsq, div_pow, sq (√(c ^ 2 + x ^ 2)), hsq]; field_simp; ring
    rw [this, Real.sqrt_sq (by positivity)]
    field_simp
  · left
    intro s hs t ht hst
    rw [algPM_dom] at hs ht
    have hps : 0 < 1 - s * s := by nlinarith
    have hpt : 0 < 1 - t * t := by nlinarith
    simp only [algPM]
    have h1 : 0 < √(1 - s * s) := Real.sqrt_pos.2 hps
    have h2 : 0 < √(1 - t * t) := Real.sqrt_pos.2 hpt
    rw [mul_div_assoc, mul_div_assoc]
    apply mul_lt_mul_of_pos_left _ hc
    rcases le_or_gt 0 s with h | h
    · have : √(1 - t * t) < √(1 - s * s) := Real.sqrt_lt_sqrt hpt.le (by nlinarith)
      rw [div_lt_div_iff₀ h1 h2]; nlinarith
    · rcases le_or_gt 0 t with h' | h'
      · have a1 : s / √(1 - s * s) < 0 := div_neg_of_neg_of_pos h h1
        have a2 : 0 ≤ t / √(1 - t * t) := div_nonneg h' h2.le
        linarith
      · have : √(1 - s * s) < √(1 - t * t) := Real.sqrt_lt_sqrt hps.le (by nlinarith)
        rw [div_lt_div_iff₀ h1 h2]; nlinarith
  · intro t ht
    rw [algPM_dom] at ht
    refine ⟨_, algPM_hasDeriv ht.1 ht.2, abs_of_pos ?_⟩
    have hp : 0 < 1 - t * t := by nlinarith [ht.1, ht.2]
    have : 0 < √(1 - t * t) := Real.sqrt_pos.2 hp
    simp only [algPM]
    have : 0 ≤ t * t / √((1 - t * t) ^ 3) := div_nonneg (mul_self_nonneg t) (Real.sqrt_nonneg _)
    positivity

/-- **C42**, the algebraic transform of `[L, ∞)`. -/
theorem C42_algebraic_pinf (L : ℝ) {c : ℝ} (hc : 0 < c) : IsChange (algP L c) (Ici L) := by
  refine ⟨by norm_num [algP], ?_, ?_, ?_, ?_, ?_, ?_⟩
  · intro t ht
    rw [algP_dom] at ht
    simp only [algP, mem_Ici]
    have : 0 ≤ c * (1 + t) / (1 - t) :=
      div_nonneg (mul_nonneg hc.le (by linarith [ht.1])) (by linarith [ht.2])
    linarith
  · intro x hx
    rw [algP_dom]
    simp only [algP, mem_Ici] at hx ⊢
    have hp : 0 < x - L + c := by linarith
    exact ⟨by rw [le_div_iff₀ hp]; linarith, by rw [div_lt_one hp]; linarith⟩
  · intro t ht
    rw [algP_dom] at ht
    have h1 : 1 - t ≠ 0 := by linarith [ht.2]
    simp only [algP]
    have e1 : L + c * (1 + t) / (1 - t) - L - c = 2 * c * t / (1 - t) := by field_simp; ring
    have e2 : L + c * (1 + t) / (1 - t) - L + c = 2 * c / (1 - t) := by field_simp; ring
    rw [e1, e2]
    field_simp
  · intro x hx
    simp only [algP, mem_Ici] at hx ⊢
    have hp : x - L + c ≠ 0 := by linarith
    have e1 : 1 + (x - L - c) / (x - L + c) = 2 * (x - L) / (x - L + c) := by field_simp; ring
    have e2 : 1 - (x - L - c) / (x - L + c) = 2 * c / (x - L + c) := by field_simp; ring
    rw [e1, e2]
    field_simp
    ring
  · left
    intro s hs t ht hst
    rw [algP_dom] at hs ht
    simp only [algP]
    have : c * (1 + s) / (1 - s) < c * (1 + t) / (1 - t) := by
      rw [div_lt_div_iff₀ (by linarith) (by linarith)]; nlinarith
    linarith
  · intro t ht
    rw [algP_dom] at ht
    have h1 : 1 - t ≠ 0 := by linarith [ht.2]
    refine ⟨(algP L c).deriv t, ?_, ?_⟩
    · have h := ((((hasDerivAt_id' t).const_add 1).const_mul c).fun_div ((hasDerivAt_id' t).const_sub 1) h1).const_add L
      simp only [algP]
      refine h.congr_deriv ?_
      field_simp
      ring
    · simp only [algP]
      have : 0 < (1 - t) ^ 2 := by positivity
      exact abs_of_pos (by positivity)

/-- **C42**, the algebraic transform of `(-∞, U]`. -/
theorem C42_algebraic_minf (U : ℝ) {c : ℝ} (hc : 0 < c) : IsChange (algM U c) (Iic U) := by
  have := (C42_algebraic_pinf (-U) hc).mirror (wt := algM U c) rfl rfl rfl
    (fun t => by simp only [algM, algP]; ring) (fun x _ => by simp only [algM, algP]; congr 1 <;> ring)
    (fun t => rfl)
  convert this using 1
  ext x; simp

/-- Applying a function through a transform acts pointwise: arrays and scalars agree, the points standing for
infinity get the default value. -/
theorem C42_apply_array (vt : VT) (f : ℝ → ℝ) (ts : List ℝ) (defVal : ℝ) (m : Bool) :
    applyArray vt f ts defVal m = ts.map fun t => applyScalar vt f t defVal m := by
  classical
  unfold applyArray
  dsimp only
  cases m
  · simp only [Bool.false_eq_true, if_false]
    split
    · rw [scatter_eq]
      apply List.map_congr_left
      intro t _
      simp [applyScalar]
    · rename_i h
      push Not at h
      apply List.map_congr_left
      intro t ht
      simp [applyScalar, h t ht]
  · simp only [if_true]
    split
    · rw [scatter_eq]
      apply List.map_congr_left
      intro t _
      simp [applyScalar]
    · rename_i h
      push Not at h
      apply List.map_congr_left
      intro t ht
      simp [applyScalar, h t ht]

open MeasureTheory in
/-- Integration through a transform is exact: the integral of the transformed integrand over the parameter
interval is the integral of `f` over the infinite (or finite) interval, for every function. -/
theorem C42_integral {vt : VT} {D : Set ℝ} (h : IsChange vt D) (f : ℝ → ℝ) :
    integrateWith (fun g a b => ∫ t in a..b, g t) vt f = ∫ x in D, f x := by
  classical
  have himg : vt.inv '' vt.dom = D := by
    ext x
    constructor
    · rintro ⟨t, ht, rfl⟩; exact h.maps t ht
    · intro hx; exact ⟨_, h.mapsBack x hx, h.right x hx⟩
  have hfin : (vt.varInf.toFinset : Set ℝ).Finite := Finset.finite_toSet _
  have hdom : vt.dom = Icc vt.varMin vt.varMax \ (vt.varInf.toFinset : Set ℝ) := by
    ext t; simp [VT.dom]
  have hmeas : MeasurableSet vt.dom := by rw [hdom]; exact measurableSet_Icc.diff hfin.measurableSet
  have hinj : InjOn vt.inv vt.dom := by
    rcases h.mono with hm | hm
    · exact hm.injOn
    · exact hm.injOn
  choose! d hd hd' using h.deriv
  have hch := integral_image_eq_integral_abs_deriv_smul hmeas (fun t ht => (hd t ht).hasDerivWithinAt) hinj f
  rw [himg] at hch
  rw [hch]
  unfold integrateWith
  show ∫ t in vt.varMin..vt.varMax, applyScalar vt f t 0 true = _
  rw [intervalIntegral.integral_of_le h.order, ← integral_Icc_eq_integral_Ioc]
  have hae : (Icc vt.varMin vt.varMax : Set ℝ) =ᵐ[volume] vt.dom := by
    rw [hdom]
    exact (sdiff_null_ae_eq_self (hfin.measure_zero volume)).symm
  rw [setIntegral_congr_set hae]
  refine setIntegral_congr_fun hmeas fun t ht => ?_
  simp only [applyScalar]
  rw [if_neg ht.2, if_pos trivial, hd' t ht, smul_eq_mul, mul_comm]

/-! ### non-vacuity -/

/-- the identity is a change of variable of its own interval -/
theorem C42_identity : IsChange identity (Icc (-1) 1) where
  order := by norm_num [identity]
  maps t ht := ht.1
  mapsBack x hx := ⟨hx, by simp [identity]⟩
  left _ _ := rfl
  right _ _ := rfl
  mono := .inl fun _ _ _ _ h => h
  deriv t _ := ⟨1, hasDerivAt_id' t, by simp [identity]⟩

example : IsChange (recP 3 6 none) (Ici 3) := C42_reciprocal_pinf 3 (by norm_num)
example : IsChange (recM (-2) 6 (some (-5))) (Icc (-5) (-2)) := C42_reciprocal_minf_finite (by norm_num) (by norm_num)
example : IsChange (algPM 1) univ := C42_algebraic_pminf one_pos
/-- a value: with `L = 4` the offset is 2 and `x = 6` corresponds to `t = 1/2` -/
example : (recP 4 1 none).varChange 6 = 1 / 2 ∧ (recP 4 1 none).inv (1 / 2) = 6 ∧ (1 / 2 : ℝ) ∈ (recP 4 1 none).dom := by
  refine ⟨?_, ?_, ?_⟩
  · norm_num [recP, recPVar, offset]
  · norm_num [recP, offset]
  · rw [recP_dom_none]; norm_num
/-- points standing for infinity get the default value -/
example (f : ℝ → ℝ) : applyArray recPM f [-1, 0, 1] 7 true = [7, f 0, 7] := by
  rw [C42_apply_array]; simp [applyScalar, recPM]

end Pacal
