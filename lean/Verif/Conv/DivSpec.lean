import Verif.Conv.DivPair

/-! What one pair of pieces contributes to a quotient. -/

namespace Pacal
namespace Conv
open MeasureTheory Set Transform

/-- the density of a pair in a quotient -/
noncomputable def divK (si sj : Seg ℝ) (x : ℝ) : ℝ :=
  if si.isDirac = false ∧ sj.isDirac = false then fibreK (fun x t => x * t) (fun t => |t|) (den sj) (den si) x
  else if si.isDirac = true ∧ sj.isDirac = false then
    si.mass * (|(lo si).toReal| / x ^ 2 * den sj ((lo si).toReal / x))
  else if si.isDirac = false ∧ sj.isDirac = true then sj.mass * (|(lo sj).toReal| * den si (x * (lo sj).toReal))
  else 0

theorem measurable_quot : Measurable fun p : ℝ × ℝ => p.1 / p.2 := measurable_fst.div measurable_snd

theorem opLaw_div_swap (μ ν : Measure ℝ) [SFinite μ] [SFinite ν] : opLaw (· / ·) μ ν = opLaw (fun t y => y / t) ν μ := by
  rw [opLaw, ← Measure.prod_swap, Measure.map_map measurable_quot measurable_swap, opLaw]
  rfl

/-- the law of `a / Y` -/
theorem map_recip_withDensity {a : ℝ} (ha : a ≠ 0) (F : ℝ → ENNReal) :
    (volume.withDensity F).map (fun y => a / y) = volume.withDensity fun x => ENNReal.ofReal (|a| / x ^ 2) * F (a / x) := by
  have hm : Measurable fun y : ℝ => a / y := measurable_const.div measurable_id
  ext A hA
  rw [Measure.map_apply hm hA, withDensity_apply _ (hm hA), withDensity_apply _ hA, ← lintegral_indicator hA,
    ← lintegral_indicator (hm hA)]
  have hs : MeasurableSet ({0}ᶜ : Set ℝ) := (measurableSet_singleton 0).compl
  have himg : (fun x : ℝ => a / x) '' {0}ᶜ = {0}ᶜ := by
    ext y
    constructor
    · rintro ⟨x, hx, rfl⟩; exact div_ne_zero ha hx
    · intro hy; exact ⟨a / y, div_ne_zero ha hy, by have : y ≠ 0 := hy; field_simp⟩
  have hall : ∀ G : ℝ → ENNReal, ∫⁻ y, G y = ∫⁻ y in {0}ᶜ, G y := by
    intro G
    have : ({0}ᶜ : Set ℝ) =ᵐ[volume] univ := by
      filter_upwards [ae_ne_real 0] with x hx
      exact propext ⟨fun _ => trivial, fun _ => hx⟩
    rw [setLIntegral_congr this, Measure.restrict_univ]
  rw [hall, hall fun x => A.indicator _ x]
  conv_lhs => rw [← himg]
  rw [lintegral_image_eq_lintegral_abs_deriv_mul hs (f' := fun x => -a / x ^ 2) (fun x hx => by
      have := (hasDerivAt_inv (show x ≠ 0 from hx)).const_mul a
      have e : a * -(x ^ 2)⁻¹ = -a / x ^ 2 := by rw [div_eq_mul_inv]; ring
      rw [e] at this
      simpa only [div_eq_mul_inv] using this.hasDerivWithinAt) (fun x hx y hy e => by
      have hx' : x ≠ 0 := hx
      have hy' : y ≠ 0 := hy
      have e : a / x = a / y := e
      rw [div_eq_div_iff hx' hy'] at e
      exact (mul_left_cancel₀ ha e).symm)]
  refine setLIntegral_congr_fun hs fun x hx => ?_
  have hx' : x ≠ 0 := hx
  have e1 : a / (a / x) = x := by field_simp
  have e2 : |-a / x ^ 2| = |a| / x ^ 2 := by rw [abs_div, abs_neg, abs_of_nonneg (sq_nonneg x)]
  rw [e2]
  by_cases h : x ∈ A
  · rw [indicator_of_mem h, indicator_of_mem (by show a / (a / x) ∈ A; rwa [e1])]
  · rw [indicator_of_notMem h, indicator_of_notMem (by show a / (a / x) ∉ A; rwa [e1]), mul_zero]

/-- an atom not at 0 divided by a continuous piece -/
theorem div_dirac_cont {a m : ℝ} (ha : a ≠ 0) (hm : 0 ≤ m) {sj : Seg ℝ} (hs : sj.isDirac = false) (hd : sj.Dens) :
    (∀ᵐ x, 0 ≤ m * (|a| / x ^ 2 * den sj (a / x))) ∧ Integrable (fun x => m * (|a| / x ^ 2 * den sj (a / x))) ∧
    opLaw (· / ·) (Seg.law (.dirac a m)) sj.law =
      volume.withDensity fun x => ENNReal.ofReal (m * (|a| / x ^ 2 * den sj (a / x))) := by
  have := Seg.law_finite hd
  have q : Measure.QuasiMeasurePreserving (fun x : ℝ => a / x) volume volume := qmp_div ha
  have h0 : ∀ᵐ x, 0 ≤ m * (|a| / x ^ 2 * den sj (a / x)) := by
    filter_upwards [q.ae (den_nonneg hs hd)] with x hx using mul_nonneg hm (mul_nonneg (by positivity) hx)
  have hl : opLaw (· / ·) (Seg.law (.dirac a m)) sj.law =
      volume.withDensity fun x => ENNReal.ofReal (m * (|a| / x ^ 2 * den sj (a / x))) := by
    rw [show Seg.law (.dirac a m) = ENNReal.ofReal m • Measure.dirac a from rfl, opLaw_dirac_left measurable_quot, den_law hs,
      ← smul_withDensity_ofReal hm]
    congr 1
    refine (map_recip_withDensity ha _).trans ?_
    congr 1
    ext x
    rw [ENNReal.ofReal_mul (by positivity)]
  refine ⟨h0, ⟨?_, ?_⟩, hl⟩
  · have h1 : AEStronglyMeasurable (fun x => den sj (a / x)) :=
      (den_integrable hs hd).aestronglyMeasurable.comp_quasiMeasurePreserving q
    have h2 : Measurable fun x : ℝ => |a| / x ^ 2 := by fun_prop
    exact (h2.aestronglyMeasurable.mul h1).const_mul m
  · rw [hasFiniteIntegral_iff_ofReal h0]
    have e := congrArg (fun μ => μ univ) hl
    simp only [opLaw] at e
    have : IsFiniteMeasure (Seg.law (.dirac a m)) := Seg.law_finite (s := .dirac a m) hm
    rw [Measure.map_apply measurable_quot MeasurableSet.univ, preimage_univ, withDensity_apply _ MeasurableSet.univ,
      Measure.restrict_univ] at e
    rw [← e]
    exact measure_lt_top _ _

/-- a continuous piece divided by an atom not at 0 -/
theorem div_cont_dirac {b n : ℝ} (hb : b ≠ 0) (hn : 0 ≤ n) {si : Seg ℝ} (hs : si.isDirac = false) (hd : si.Dens) :
    (∀ᵐ x, 0 ≤ n * (|b| * den si (x * b))) ∧ Integrable (fun x => n * (|b| * den si (x * b))) ∧
    opLaw (· / ·) si.law (Seg.law (.dirac b n)) = volume.withDensity fun x => ENNReal.ofReal (n * (|b| * den si (x * b))) := by
  have := Seg.law_finite hd
  obtain ⟨h1, h2, h3⟩ := prod_dirac_cont (a := b⁻¹) (m := n) (inv_ne_zero hb) hn hs hd
  have e : ∀ x, n * (|b⁻¹|⁻¹ * den si (x / b⁻¹)) = n * (|b| * den si (x * b)) := by
    intro x; rw [abs_inv, inv_inv, div_inv_eq_mul]
  simp only [e] at h1 h2 h3
  refine ⟨h1, h2, ?_⟩
  have : IsFiniteMeasure (Seg.law (.dirac b n)) := Seg.law_finite (s := .dirac b n) hn
  rw [← h3, opLaw_div_swap, show Seg.law (.dirac b n) = ENNReal.ofReal n • Measure.dirac b from rfl,
    opLaw_dirac_left (op := fun t y => y / t) (measurable_snd.div measurable_fst),
    show Seg.law (.dirac b⁻¹ n) = ENNReal.ofReal n • Measure.dirac b⁻¹ from rfl, opLaw_dirac_left measurable_prod]
  congr 2
  ext y
  rw [div_eq_inv_mul]

/-- `n / a` for two atoms -/
theorem div_dirac_dirac {a m b n : ℝ} (hm : 0 ≤ m) (hn : 0 ≤ n) :
    opLaw (· / ·) (Seg.law (.dirac a m)) (Seg.law (.dirac b n)) = ENNReal.ofReal (m * n) • Measure.dirac (a / b) := by
  have : IsFiniteMeasure (Seg.law (.dirac b n)) := Seg.law_finite (s := .dirac b n) hn
  rw [show Seg.law (.dirac a m) = ENNReal.ofReal m • Measure.dirac a from rfl,
    opLaw_dirac_left measurable_quot, show Seg.law (.dirac b n) = ENNReal.ofReal n • Measure.dirac b from rfl,
    Measure.map_smul, smul_smul, ← ENNReal.ofReal_mul hm]
  have : Measurable fun y : ℝ => a / y := measurable_const.div measurable_id
  exact congrArg _ (Measure.map_dirac' this b)

/-- the density of a continuous piece is the same number everywhere -/
def Flat (s : Seg ℝ) : Prop := ∃ c, ∀ x, s.fn x = c

theorem funDiv_spec {P : Par} (hP : ExactQ P.q P.qp) (arr : Bool) {si sj : Seg ℝ} (hwi : si.WF) (hwj : sj.WF) (hdi : si.Dens)
    (hdj : sj.Dens) (hci : OneSide si) (hcj : OneSide sj) (h1 : ∀ n, sj ≠ .dirac 0 n)
    (h2 : ∀ m, si = .dirac 0 m → sj.isDirac = true) (h3 : si.isDirac = false → sj.isDirac = true → Flat si) :
    PairSpec (· / ·) TestDiv (funDiv P arr) divK (atomLaw (· / ·)) si sj := by
  have := Seg.law_finite hdi
  have := Seg.law_finite hdj
  rcases isDirac_cases si with hsi | ⟨a, m, rfl⟩
  · rcases isDirac_cases sj with hsj | ⟨b, n, rfl⟩
    · obtain ⟨c1, c2, c3, c4⟩ := fibre_dens fibreDiv (den_integrable hsj hdj) (den_integrable hsi hdi) (den_nonneg hsj hdj) (den_nonneg hsi hdi)
      have hk : divK si sj = fibreK (fun x t => x * t) (fun t => |t|) (den sj) (den si) := by ext x; rw [divK, if_pos ⟨hsi, hsj⟩]
      refine ⟨by rw [hk]; exact c2, by rw [hk]; exact c3, ?_, ?_, ?_⟩
      · rw [opLaw_div_swap, hk, den_law hsi, den_law hsj, c4, atomLaw, atomPair_left hsi]
        simp
      · filter_upwards [c1, ae_ne_real 0] with x h hx _
        rw [hk, funDiv, pairDiv, if_pos ⟨hsi, hsj⟩]
        split_ifs
        · exact contDiv2_eq hP hwj hci hx h
        · exact contDiv1_eq hP hwi hcj hx h
      · filter_upwards [ae_ne_real 0] with x hx ht
        rw [hk, fibreK]
        refine (integral_congr_ae (.of_forall fun t => ?_)).trans (integral_zero _ _)
        show den sj t * (|t| * den si (x * t)) = 0
        by_cases h1 : t ∈ sj.inner
        · by_cases h2 : x * t ∈ si.inner
          · exact absurd ((testDiv_cont hx hsi hsj hwi hwj).2 ⟨t, h1, h2⟩) ht
          · rw [den_eq_zero h2, mul_zero, mul_zero]
        · rw [den_eq_zero h1, zero_mul]
    · have hb : b ≠ 0 := fun h => h1 n (by rw [h])
      have hk : divK si (.dirac b n) = fun x => n * (|b| * den si (x * b)) := by
        ext x; rw [divK, if_neg (by simp [Seg.isDirac]), if_neg (by simp [Seg.isDirac]), if_pos ⟨hsi, rfl⟩]; rfl
      obtain ⟨c1, c2, c3⟩ := div_cont_dirac (b := b) (n := n) hb hdj hsi hdi
      refine ⟨by rw [hk]; exact c1, by rw [hk]; exact c2, ?_, ?_, ?_⟩
      · rw [c3, hk, atomLaw, atomPair_left hsi]
        simp
      · filter_upwards [ae_ne_real 0] with x hx ht
        obtain ⟨c, hc⟩ := h3 hsi rfl
        rw [hk, funDiv, pairDiv, if_neg (by simp [Seg.isDirac]), if_neg (by simp [Seg.isDirac]), if_pos ⟨hsi, rfl⟩,
          show (lo (.dirac b n)).toReal = b from rfl, if_neg hb]
        dsimp only
        rw [den_eq ((testDiv_right hx).1 ht), hc, hc, show (Seg.dirac b n).mass = n from rfl]
        congr 1; ring
      · filter_upwards [ae_ne_real 0] with x hx ht
        rw [hk]
        dsimp only
        rw [den_eq_zero fun h => ht ((testDiv_right hx).2 h), mul_zero, mul_zero]
  · rcases isDirac_cases sj with hsj | ⟨b, n, rfl⟩
    · have ha : a ≠ 0 := by
        rintro rfl
        rw [h2 m rfl] at hsj
        simp at hsj
      have hk : divK (.dirac a m) sj = fun x => m * (|a| / x ^ 2 * den sj (a / x)) := by
        ext x; rw [divK, if_neg (by simp [Seg.isDirac]), if_pos ⟨rfl, hsj⟩]; rfl
      obtain ⟨c1, c2, c3⟩ := div_dirac_cont (a := a) (m := m) ha hdi hsj hdj
      refine ⟨by rw [hk]; exact c1, by rw [hk]; exact c2, ?_, ?_, ?_⟩
      · rw [c3, hk, atomLaw, atomPair_right hsj]
        simp
      · filter_upwards [ae_ne_real 0] with x hx ht
        rw [hk, funDiv, pairDiv, if_neg (by simp [Seg.isDirac]), if_pos ⟨rfl, hsj⟩,
          show (lo (.dirac a m)).toReal = a from rfl, if_neg ha]
        dsimp only
        rw [den_eq ((testDiv_left hx hwj).1 ht), show (Seg.dirac a m).mass = m from rfl]
        congr 1; field_simp
      · filter_upwards [ae_ne_real 0] with x hx ht
        rw [hk]
        dsimp only
        rw [den_eq_zero fun h => ht ((testDiv_left hx hwj).2 h), mul_zero, mul_zero]
    · have hk : divK (.dirac a m) (.dirac b n) = fun _ => 0 := by ext x; simp [divK, Seg.isDirac]
      refine ⟨by simp [hk], by simp [hk], ?_, ?_, by simp [hk]⟩
      · rw [hk, div_dirac_dirac hdi hdj]
        simp [atomLaw, atomPair]
      · filter_upwards [ae_ne_real 0] with x hx ht
        have := mem_inner.1 ((testDiv_right hx).1 ht)
        exact absurd (this.1.trans this.2) (lt_irrefl _)

end Conv
end Pacal
