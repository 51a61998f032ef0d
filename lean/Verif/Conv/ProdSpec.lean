import Verif.Conv.ProdPair
import Mathlib.MeasureTheory.Measure.Haar.NormedSpace

/-! What one pair of pieces contributes to a product. -/

namespace Pacal
namespace Conv
open MeasureTheory Set Transform

/-- the density of a pair in a product -/
noncomputable def prodK (si sj : Seg ℝ) (x : ℝ) : ℝ :=
  if si.isDirac = false ∧ sj.isDirac = false then fibreK (fun x t => x / t) (fun t => |t|⁻¹) (den si) (den sj) x
  else if si.isDirac = true ∧ sj.isDirac = false then
    if (lo si).toReal = 0 then 0 else si.mass * (|(lo si).toReal|⁻¹ * den sj (x / (lo si).toReal))
  else if si.isDirac = false ∧ sj.isDirac = true then
    if (lo sj).toReal = 0 then 0 else sj.mass * (|(lo sj).toReal|⁻¹ * den si (x / (lo sj).toReal))
  else 0

/-- an atom at 0 times a continuous piece -/
noncomputable def zeroPart (si sj : Seg ℝ) : Measure ℝ :=
  match si with
  | .dirac a m => if a = 0 ∧ sj.isDirac = false then (ENNReal.ofReal m * sj.law univ) • Measure.dirac 0 else 0
  | _ => 0

/-- the atoms of a pair in a product -/
noncomputable def prodAtoms (si sj : Seg ℝ) : Measure ℝ := atomLaw (· * ·) si sj + (zeroPart si sj + zeroPart sj si)

theorem zeroPart_left {si sj : Seg ℝ} (h : si.isDirac = false) : zeroPart si sj = 0 := by
  cases si <;> first | rfl | simp [Seg.isDirac] at h

theorem zeroPart_dirac {si : Seg ℝ} {b n : ℝ} : zeroPart si (.dirac b n) = 0 := by
  cases si <;> simp [zeroPart, Seg.isDirac]

theorem measurable_prod : Measurable fun p : ℝ × ℝ => p.1 * p.2 := measurable_fst.mul measurable_snd

theorem opLaw_mul_comm (μ ν : Measure ℝ) [SFinite μ] [SFinite ν] : opLaw (· * ·) μ ν = opLaw (· * ·) ν μ := by
  rw [opLaw, ← Measure.prod_swap, Measure.map_map measurable_prod measurable_swap, opLaw]
  congr 1
  ext p
  simp [mul_comm]

theorem map_mul_withDensity {a : ℝ} (ha : a ≠ 0) (F : ℝ → ENNReal) :
    (volume.withDensity F).map (fun y => a * y) = volume.withDensity fun x => ENNReal.ofReal |a|⁻¹ * F (x / a) := by
  obtain ⟨e, he⟩ : ∃ e : ℝ ≃ᵐ ℝ, ∀ y, e y = a * y := ⟨(Homeomorph.mulLeft₀ a ha).toMeasurableEquiv, fun y => rfl⟩
  have he' : (fun y => a * y) = e := by ext y; rw [he]
  ext A hA
  have hm := measurable_const_mul a hA
  rw [Measure.map_apply (measurable_const_mul a) hA, withDensity_apply _ hm, withDensity_apply _ hA,
    ← lintegral_indicator hA, ← lintegral_indicator hm]
  have h2 : ∫⁻ y, (A.indicator fun x => F (x / a)) (e y) = ∫⁻ x, ENNReal.ofReal |a|⁻¹ * (A.indicator fun x => F (x / a)) x := by
    rw [← lintegral_map_equiv (μ := volume) _ e, ← he', Real.map_volume_mul_left ha, lintegral_smul_measure, smul_eq_mul,
      lintegral_const_mul' _ _ ENNReal.ofReal_ne_top, abs_inv]
  refine Eq.trans (lintegral_congr fun y => ?_) (h2.trans (lintegral_congr fun x => ?_))
  · rw [he]
    by_cases hy : a * y ∈ A
    · rw [indicator_of_mem (by exact hy), indicator_of_mem hy, mul_div_cancel_left₀ _ ha]
    · rw [indicator_of_notMem (by exact hy), indicator_of_notMem hy]
  · by_cases hx : x ∈ A
    · rw [indicator_of_mem hx, indicator_of_mem hx]
    · rw [indicator_of_notMem hx, indicator_of_notMem hx, mul_zero]

/-- an atom not at 0 times a continuous piece -/
theorem prod_dirac_cont {a m : ℝ} (ha : a ≠ 0) (hm : 0 ≤ m) {sj : Seg ℝ} (hs : sj.isDirac = false) (hd : sj.Dens) :
    (∀ᵐ x, 0 ≤ m * (|a|⁻¹ * den sj (x / a))) ∧ Integrable (fun x => m * (|a|⁻¹ * den sj (x / a))) ∧
    opLaw (· * ·) (Seg.law (.dirac a m)) sj.law = volume.withDensity fun x => ENNReal.ofReal (m * (|a|⁻¹ * den sj (x / a))) := by
  have := Seg.law_finite hd
  have q : Measure.QuasiMeasurePreserving (fun x : ℝ => x / a) volume volume := by
    simpa only [div_eq_inv_mul] using qmp_mul (inv_ne_zero ha)
  refine ⟨?_, ?_, ?_⟩
  · filter_upwards [q.ae (den_nonneg hs hd)] with x hx using mul_nonneg hm (mul_nonneg (by positivity) hx)
  · exact (((den_integrable hs hd).comp_div ha).const_mul _).const_mul m
  · rw [show Seg.law (.dirac a m) = ENNReal.ofReal m • Measure.dirac a from rfl, opLaw_dirac_left measurable_prod, den_law hs,
      ← smul_withDensity_ofReal hm]
    congr 1
    refine (map_mul_withDensity ha _).trans ?_
    congr 1
    ext x
    rw [ENNReal.ofReal_mul (by positivity)]

/-- an atom at 0 times a continuous piece -/
theorem prod_zero_cont {m : ℝ} {sj : Seg ℝ} (hs : sj.isDirac = false) (hd : sj.Dens) :
    opLaw (· * ·) (Seg.law (.dirac 0 m)) sj.law = zeroPart (.dirac 0 m) sj := by
  have := Seg.law_finite hd
  rw [show Seg.law (.dirac 0 m) = ENNReal.ofReal m • Measure.dirac 0 from rfl, opLaw_dirac_left measurable_prod]
  have : Measure.map (HMul.hMul (0 : ℝ)) sj.law = sj.law univ • Measure.dirac 0 := by
    have e : (HMul.hMul (0 : ℝ) : ℝ → ℝ) = fun _ => 0 := by ext; exact zero_mul _
    rw [e, Measure.map_const]
  have h' : zeroPart (.dirac 0 m) sj = (ENNReal.ofReal m * sj.law univ) • Measure.dirac 0 := if_pos ⟨rfl, hs⟩
  rw [h', mul_smul, ← this]

theorem contProd_eq {P : Par} (hP : ExactQ P.q P.qp) {x : ℝ} {si sj : Seg ℝ} (hsi : si.isDirac = false)
    (hsj : sj.isDirac = false) (hwi : si.WF) (hwj : sj.WF) (hci : CutSeg si) (hcj : CutSeg sj) (hx : x ≠ 0)
    (ht : TestMul x si sj) (h : Integrable fun t => den si t * (|t|⁻¹ * den sj (x / t))) :
    contProd P x si sj = .ok (fibreK (fun x t => x / t) (fun t => |t|⁻¹) (den si) (den sj) x) := by
  obtain ⟨L, U, e, hne, hlim⟩ := limits hsi hsj hwi hwj hci hcj P ht hx
  have hS := openBetween_measurable L U
  obtain ⟨S, hSe⟩ : ∃ S, S = {t : ℝ | L < t ∧ (t : EReal) < U} := ⟨_, rfl⟩
  rw [← hSe] at hS
  have hae : (fun t => den si t * (|t|⁻¹ * den sj (x / t))) =ᵐ[volume] S.indicator (funI si sj x) := by
    filter_upwards [ae_ne_real 0] with t ht0
    by_cases hm : t ∈ S
    · have := (hlim t ht0).1 (by rw [hSe] at hm; exact hm)
      rw [indicator_of_mem hm, den_eq this.1, den_eq this.2, funI, if_neg ht0]
      field_simp
    · rw [indicator_of_notMem hm]
      have : ¬ (t ∈ si.inner ∧ x / t ∈ sj.inner) := fun h' => hm (by rw [hSe]; exact (hlim t ht0).2 h')
      rw [not_and_or] at this
      rcases this with h' | h' <;> simp [den_eq_zero h']
  have hval : ∫ t in S, funI si sj x t = fibreK (fun x t => x / t) (fun t => |t|⁻¹) (den si) (den sj) x := by
    rw [fibreK, integral_congr_ae hae, integral_indicator hS]
  rw [e]
  rcases lt_or_ge U L with hUL | hLU
  · rw [C57_segint_reversed _ _ _ hUL]
    have : S = ∅ := by
      rw [hSe]; ext t
      simp only [mem_ofPred_eq, mem_empty_iff_false, iff_false]
      rintro ⟨h1, h2⟩
      exact absurd (h1.trans h2) (not_lt.2 hUL.le)
    rw [← hval, this]
    simp [Except.map]
  · have hint : IntegrableOn (funI si sj x) (between L U) := by
      have := (integrable_congr hae).1 h
      rw [integrable_indicator_iff hS, hSe] at this
      exact this.congr_set_ae (openBetween_ae _ _).symm
    obtain ⟨r, h1, h2⟩ := C57_segint hP.exact hP.eps hP.cond hP.expInf hP.expPole hLU hne hint false false
    rw [h1]
    show Except.ok r.1 = _
    rw [IsIntegral] at h2
    rw [h2, ← hval, hSe]
    congr 1
    exact (setIntegral_congr_set (openBetween_ae _ _)).symm

theorem prodK_left {a m : ℝ} {sj : Seg ℝ} (h : sj.isDirac = false) (x : ℝ) :
    prodK (.dirac a m) sj x = if a = 0 then 0 else m * (|a|⁻¹ * den sj (x / a)) := by
  rw [prodK, if_neg (by simp [Seg.isDirac]), if_pos ⟨rfl, h⟩]; rfl

theorem prodK_right {a m : ℝ} {si : Seg ℝ} (h : si.isDirac = false) (x : ℝ) :
    prodK si (.dirac a m) x = if a = 0 then 0 else m * (|a|⁻¹ * den si (x / a)) := by
  rw [prodK, if_neg (by simp [Seg.isDirac]), if_neg (by simp [Seg.isDirac]), if_pos ⟨h, rfl⟩]; rfl

theorem test_dirac_zero {x m : ℝ} {sj : Seg ℝ} : ¬ TestMul x (.dirac 0 m) sj := by
  have key : ∀ v ∈ corners (.dirac 0 m) sj, v = 0 := by
    intro v hv
    obtain ⟨e, he, f, hf, h⟩ := mem_corners.1 hv
    have : e = 0 := by
      rw [show lo (.dirac 0 m) = 0 from rfl, show hi (.dirac 0 m) = 0 from rfl] at he
      simpa using he
    subst this
    unfold fmul at h
    split_ifs at h
    simp only [Option.some.injEq, zero_mul] at h
    exact h.symm
  rintro ⟨⟨c, hc, h1⟩, d, hd, h2⟩
  rw [key c hc] at h1
  rw [key d hd] at h2
  exact lt_asymm h1 h2

/-- the pairs found for an atom: the point `x / a` is in the other piece -/
theorem test_dirac {x a m : ℝ} (ha : a ≠ 0) {sj : Seg ℝ} (hw : sj.WF) (h : TestMul x (.dirac a m) sj) : x / a ∈ sj.inner := by
  have key : ∀ v ∈ corners (.dirac a m) sj, v = a * lo sj ∨ v = a * hi sj := by
    intro v hv
    obtain ⟨e, he, f, hf, h⟩ := mem_corners.1 hv
    have : e = a := by
      rw [show lo (.dirac a m) = a from rfl, show hi (.dirac a m) = a from rfl] at he
      simpa using he
    subst this
    unfold fmul at h
    split_ifs at h
    simp only [Option.some.injEq, List.mem_cons, List.not_mem_nil, or_false] at h hf
    rcases hf with rfl | rfl
    · exact .inl h.symm
    · exact .inr h.symm
  have hpos : 0 < a → ∀ e : EReal, ((a : EReal) * e < x ↔ e < ((x / a : ℝ) : EReal)) ∧ ((x : EReal) < a * e ↔ ((x / a : ℝ) : EReal) < e) := by
    intro ha e
    induction e using EReal.rec with
    | top => rw [EReal.coe_mul_top_of_pos ha]; simp [EReal.coe_lt_top]
    | bot => rw [EReal.coe_mul_bot_of_pos ha]; simp [EReal.bot_lt_coe]
    | coe e =>
      rw [← EReal.coe_mul, EReal.coe_lt_coe_iff, EReal.coe_lt_coe_iff, EReal.coe_lt_coe_iff, EReal.coe_lt_coe_iff,
        lt_div_iff₀ ha, div_lt_iff₀ ha, mul_comm]
      exact ⟨Iff.rfl, Iff.rfl⟩
  have hneg : a < 0 → ∀ e : EReal, ((a : EReal) * e < x ↔ ((x / a : ℝ) : EReal) < e) ∧ ((x : EReal) < a * e ↔ e < ((x / a : ℝ) : EReal)) := by
    intro ha e
    induction e using EReal.rec with
    | top => rw [EReal.coe_mul_top_of_neg ha]; simp [EReal.coe_lt_top, EReal.bot_lt_coe]
    | bot => rw [EReal.coe_mul_bot_of_neg ha]; simp [EReal.bot_lt_coe, EReal.coe_lt_top]
    | coe e =>
      rw [← EReal.coe_mul, EReal.coe_lt_coe_iff, EReal.coe_lt_coe_iff, EReal.coe_lt_coe_iff, EReal.coe_lt_coe_iff,
        lt_div_iff_of_neg ha, div_lt_iff_of_neg ha, mul_comm]
      exact ⟨Iff.rfl, Iff.rfl⟩
  rw [mem_inner]
  obtain ⟨⟨c, hc, h1⟩, d, hd, h2⟩ := h
  have c1 : ((x / a : ℝ) : EReal) < lo sj ∨ ((x / a : ℝ) : EReal) < hi sj := by
    rcases lt_or_gt_of_ne ha with ha | ha
    · rcases key c hc with rfl | rfl
      · exact .inl ((hneg ha _).1.1 h1)
      · exact .inr ((hneg ha _).1.1 h1)
    · rcases key d hd with rfl | rfl
      · exact .inl ((hpos ha _).2.1 h2)
      · exact .inr ((hpos ha _).2.1 h2)
  have c2 : lo sj < ((x / a : ℝ) : EReal) ∨ hi sj < ((x / a : ℝ) : EReal) := by
    rcases lt_or_gt_of_ne ha with ha | ha
    · rcases key d hd with rfl | rfl
      · exact .inl ((hneg ha _).2.1 h2)
      · exact .inr ((hneg ha _).2.1 h2)
    · rcases key c hc with rfl | rfl
      · exact .inl ((hpos ha _).1.1 h1)
      · exact .inr ((hpos ha _).1.1 h1)
  have hle : lo sj ≤ hi sj := by
    rcases isDirac_cases sj with hs | ⟨b, n, rfl⟩
    · exact (lo_lt_hi hs hw).le
    · exact le_rfl
  exact ⟨c2.elim id hle.trans_lt, c1.elim (fun h => h.trans_le hle) id⟩

theorem test_of_dirac {x a m : ℝ} (ha : a ≠ 0) {sj : Seg ℝ} (hx : x ≠ 0) (h : x / a ∈ sj.inner) : TestMul x (.dirac a m) sj := by
  have e : x / a * a = x := div_mul_cancel₀ x ha
  have := test_of (si := sj) (sj := .dirac a m) (s := x / a) (t := a) h.1 h.2 le_rfl le_rfl (by rwa [e])
  rw [e] at this
  exact testMul_comm.1 this

theorem pairProd_comm_dirac {P : Par} {a m x : ℝ} {s : Seg ℝ} (h : s.isDirac = false) :
    pairProd P x s (.dirac a m) = .ok (diracProd x a m s) ∧ pairProd P x (.dirac a m) s = .ok (diracProd x a m s) := by
  constructor
  · rw [pairProd, if_neg (by simp [Seg.isDirac]), if_neg (by simp [Seg.isDirac]), if_pos ⟨h, rfl⟩]; rfl
  · rw [pairProd, if_neg (by simp [Seg.isDirac]), if_pos ⟨rfl, h⟩]; rfl

theorem diracProd_eq {a m x : ℝ} {s : Seg ℝ} (hx : x ≠ 0) (h : x / a ∈ s.inner) :
    diracProd x a m s = m * (|a|⁻¹ * den s (x / a)) := by
  rw [diracProd, if_neg hx, den_eq h, add_zero, div_eq_mul_inv]; ring

theorem pairProd_spec {P : Par} (hP : ExactQ P.q P.qp) {si sj : Seg ℝ} (hwi : si.WF) (hwj : sj.WF) (hdi : si.Dens) (hdj : sj.Dens)
    (hci : CutSeg si) (hcj : CutSeg sj) : PairSpec (· * ·) TestMul (pairProd P) prodK prodAtoms si sj := by
  have := Seg.law_finite hdi
  have := Seg.law_finite hdj
  rcases isDirac_cases si with hsi | ⟨a, m, rfl⟩
  · rcases isDirac_cases sj with hsj | ⟨b, n, rfl⟩
    · obtain ⟨c1, c2, c3, c4⟩ := fibre_dens fibreMul (den_integrable hsi hdi) (den_integrable hsj hdj) (den_nonneg hsi hdi) (den_nonneg hsj hdj)
      have hk : prodK si sj = fibreK (fun x t => x / t) (fun t => |t|⁻¹) (den si) (den sj) := by ext x; rw [prodK, if_pos ⟨hsi, hsj⟩]
      refine ⟨by rw [hk]; exact c2, by rw [hk]; exact c3, ?_, ?_, ?_⟩
      · rw [hk, den_law hsi, den_law hsj, c4, prodAtoms, atomLaw, atomPair_left hsi, zeroPart_left hsi, zeroPart_left hsj]
        simp
      · filter_upwards [c1, ae_ne_real 0] with x h hx ht
        rw [hk, pairProd, if_pos ⟨hsi, hsj⟩, contProd_eq hP hsi hsj hwi hwj hci hcj hx ht h]
      · filter_upwards [ae_ne_real 0] with x hx ht
        rw [hk, fibreK]
        refine (integral_congr_ae ?_).trans (integral_zero _ _)
        filter_upwards [ae_ne_real 0] with t ht0
        show den si t * (|t|⁻¹ * den sj (x / t)) = 0
        by_cases h1 : t ∈ si.inner
        · by_cases h2 : x / t ∈ sj.inner
          · have e : t * (x / t) = x := mul_div_cancel₀ x ht0
            have := test_of (si := si) (sj := sj) h1.1 h1.2 h2.1.le h2.2.le (by rwa [e])
            rw [e] at this
            exact absurd this ht
          · rw [den_eq_zero h2, mul_zero, mul_zero]
        · rw [den_eq_zero h1, zero_mul]
    · have hk : ∀ x, prodK si (.dirac b n) x = if b = 0 then 0 else n * (|b|⁻¹ * den si (x / b)) := fun x => prodK_right hsi x
      by_cases hb : b = 0
      · subst hb
        simp only [if_true] at hk
        refine ⟨by simp [hk], by rw [show prodK si (.dirac 0 n) = fun _ => 0 from funext hk]; exact integrable_zero _ _ _, ?_, ?_, by simp [hk]⟩
        · rw [opLaw_mul_comm, prod_zero_cont hsi hdi, prodAtoms, atomLaw, atomPair_left hsi, zeroPart_dirac]
          simp [hk]
        · exact .of_forall fun x hx => absurd (testMul_comm.1 hx) test_dirac_zero
      · obtain ⟨c1, c2, c3⟩ := prod_dirac_cont (a := b) (m := n) hb hdj hsi hdi
        simp only [hb, if_false] at hk
        have hk' : prodK si (.dirac b n) = fun x => n * (|b|⁻¹ * den si (x / b)) := funext hk
        refine ⟨by rw [hk']; exact c1, by rw [hk']; exact c2, ?_, ?_, ?_⟩
        · rw [opLaw_mul_comm, c3, hk', prodAtoms, atomLaw, atomPair_left hsi, zeroPart_dirac, zeroPart]
          simp [hb]
        · filter_upwards [ae_ne_real 0] with x hx ht
          rw [hk, (pairProd_comm_dirac hsi).1, diracProd_eq hx (test_dirac hb hwi (testMul_comm.1 ht))]
        · filter_upwards [ae_ne_real 0] with x hx ht
          rw [hk, den_eq_zero fun h => ht (testMul_comm.1 (test_of_dirac hb hx h)), mul_zero, mul_zero]
  · rcases isDirac_cases sj with hsj | ⟨b, n, rfl⟩
    · have hk : ∀ x, prodK (.dirac a m) sj x = if a = 0 then 0 else m * (|a|⁻¹ * den sj (x / a)) := fun x => prodK_left hsj x
      by_cases ha : a = 0
      · subst ha
        simp only [if_true] at hk
        refine ⟨by simp [hk], by rw [show prodK (.dirac 0 m) sj = fun _ => 0 from funext hk]; exact integrable_zero _ _ _, ?_, ?_, by simp [hk]⟩
        · rw [prod_zero_cont hsj hdj, prodAtoms, atomLaw, atomPair_right hsj, zeroPart_left hsj]
          simp [hk]
        · exact .of_forall fun x hx => absurd hx test_dirac_zero
      · obtain ⟨c1, c2, c3⟩ := prod_dirac_cont (a := a) (m := m) ha hdi hsj hdj
        simp only [ha, if_false] at hk
        have hk' : prodK (.dirac a m) sj = fun x => m * (|a|⁻¹ * den sj (x / a)) := funext hk
        refine ⟨by rw [hk']; exact c1, by rw [hk']; exact c2, ?_, ?_, ?_⟩
        · rw [c3, hk', prodAtoms, atomLaw, atomPair_right hsj, zeroPart_left hsj, zeroPart]
          simp [ha]
        · filter_upwards [ae_ne_real 0] with x hx ht
          rw [hk, (pairProd_comm_dirac hsj).2, diracProd_eq hx (test_dirac ha hwj ht)]
        · filter_upwards [ae_ne_real 0] with x hx ht
          rw [hk, den_eq_zero fun h => ht (test_of_dirac ha hx h), mul_zero, mul_zero]
    · have hk : prodK (.dirac a m) (.dirac b n) = fun _ => 0 := by ext x; simp [prodK, Seg.isDirac]
      refine ⟨by simp [hk], by simp [hk], ?_, ?_, by simp [hk]⟩
      · have hm : 0 ≤ m := hdi
        rw [hk, show Seg.law (.dirac a m) = ENNReal.ofReal m • Measure.dirac a from rfl,
          opLaw_dirac_left measurable_prod, show Seg.law (.dirac b n) = ENNReal.ofReal n • Measure.dirac b from rfl,
          Measure.map_smul, Measure.map_dirac' (measurable_const_mul a), smul_smul, ← ENNReal.ofReal_mul hm,
          prodAtoms, zeroPart_dirac, zeroPart_dirac]
        simp [atomLaw, atomPair, withDensity_zero]
      · refine .of_forall fun x ht => ?_
        exfalso
        obtain ⟨⟨c, hc, h1⟩, d, hd, h2⟩ := ht
        have key : ∀ v ∈ corners (.dirac a m) (.dirac b n), v = ((a * b : ℝ) : EReal) := by
          intro v hv
          obtain ⟨e, he, f, hf, h⟩ := mem_corners.1 hv
          have e1 : e = a := by
            rw [show lo (.dirac a m) = a from rfl, show hi (.dirac a m) = a from rfl] at he
            simpa using he
          have e2 : f = b := by
            rw [show lo (.dirac b n) = b from rfl, show hi (.dirac b n) = b from rfl] at hf
            simpa using hf
          subst e1; subst e2
          rw [fmul_fin _ _ (.inr ⟨a, rfl⟩)] at h
          simpa using h.symm
        rw [key c hc] at h1
        rw [key d hd] at h2
        exact lt_asymm h1 h2

end Conv
end Pacal
