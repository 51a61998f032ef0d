import Verif.Conv.Pair
import Verif.Conv.Atoms
import Mathlib.MeasureTheory.Measure.WithDensity
import Mathlib.MeasureTheory.Group.Convolution
import Mathlib.Analysis.Convolution
import Mathlib.MeasureTheory.Measure.Haar.Unique

/-! The contribution of one pair of pieces to the sum. -/

namespace Pacal
namespace Conv
open MeasureTheory Set Transform

/-- the density of a pair -/
noncomputable def pairK (si sj : Seg ℝ) (x : ℝ) : ℝ :=
  if si.isDirac = false ∧ sj.isDirac = false then cint si sj x
  else if si.isDirac = true ∧ sj.isDirac = false then si.mass * den sj (x - (lo si).toReal)
  else if si.isDirac = false ∧ sj.isDirac = true then sj.mass * den si (x - (lo sj).toReal)
  else 0

theorem measurable_sum : Measurable fun p : ℝ × ℝ => p.1 + p.2 := measurable_fst.add measurable_snd

theorem opLaw_add_comm (μ ν : Measure ℝ) [SFinite μ] [SFinite ν] : opLaw (· + ·) μ ν = opLaw (· + ·) ν μ := by
  rw [opLaw, ← Measure.prod_swap, Measure.map_map measurable_sum measurable_swap, opLaw]
  congr 1
  ext p
  simp [add_comm]

theorem map_add_withDensity (a : ℝ) (F : ℝ → ENNReal) :
    (volume.withDensity F).map (fun y => a + y) = volume.withDensity fun x => F (x - a) := by
  ext A hA
  rw [Measure.map_apply (measurable_const_add a) hA, withDensity_apply _ (measurable_const_add a hA), withDensity_apply _ hA,
    ← lintegral_indicator hA, ← lintegral_indicator (measurable_const_add a hA),
    ← lintegral_add_left_eq_self (μ := volume) (A.indicator _) a]
  refine lintegral_congr fun y => ?_
  simp only [indicator, add_sub_cancel_left]; rfl

theorem opLaw_dirac_left {op : ℝ → ℝ → ℝ} (hop : Measurable fun p : ℝ × ℝ => op p.1 p.2) (a m : ℝ) (ν : Measure ℝ) [SFinite ν] :
    opLaw op (ENNReal.ofReal m • Measure.dirac a) ν = ENNReal.ofReal m • ν.map (op a) := by
  rw [opLaw, Measure.prod_smul_left, Measure.map_smul, Measure.dirac_prod, Measure.map_map hop measurable_prodMk_left]
  rfl

theorem smul_withDensity_ofReal {m : ℝ} (hm : 0 ≤ m) (F : ℝ → ℝ) :
    ENNReal.ofReal m • (volume.withDensity fun x => ENNReal.ofReal (F x)) = volume.withDensity fun x => ENNReal.ofReal (m * F x) := by
  rw [← withDensity_smul' _ _ ENNReal.ofReal_ne_top]
  congr 1
  ext x
  rw [Pi.smul_apply, smul_eq_mul, ENNReal.ofReal_mul hm]

theorem conv_dens {si sj : Seg ℝ} (hsi : si.isDirac = false) (hsj : sj.isDirac = false) (hdi : si.Dens) (hdj : sj.Dens) :
    (∀ᵐ x, Integrable fun t => den si t * den sj (x - t)) ∧ (∀ x, 0 ≤ cint si sj x) ∧ Integrable (cint si sj) ∧
    opLaw (· + ·) si.law sj.law = volume.withDensity fun x => ENNReal.ofReal (cint si sj x) := by
  have h1 : ∀ᵐ x, Integrable fun t => den si t * den sj (x - t) :=
    (den_integrable hsi hdi).ae_convolution_exists (ContinuousLinearMap.mul ℝ ℝ) (den_integrable hsj hdj)
  have h0 : ∀ x, ∀ᵐ t, 0 ≤ den si t * den sj (x - t) := by
    intro x
    have := (Measure.measurePreserving_sub_left (volume : Measure ℝ) x).quasiMeasurePreserving.ae (den_nonneg hsj hdj)
    filter_upwards [den_nonneg hsi hdi, this] with t h1 h2 using mul_nonneg h1 h2
  refine ⟨h1, fun x => integral_nonneg_of_ae (h0 x), ?_, ?_⟩
  · exact (den_integrable hsi hdi).integrable_convolution (ContinuousLinearMap.mul ℝ ℝ) (den_integrable hsj hdj)
  · have mi := (den_integrable hsi hdi).aestronglyMeasurable.aemeasurable.ennreal_ofReal
    have mj := (den_integrable hsj hdj).aestronglyMeasurable.aemeasurable.ennreal_ofReal
    rw [den_law hsi, den_law hsj]
    show Measure.conv _ _ = _
    rw [conv_withDensity_eq_mlconvolution₀ mi mj]
    refine withDensity_congr_ae ?_
    filter_upwards [h1] with x hx
    rw [lconvolution, cint, ofReal_integral_eq_lintegral_ofReal hx (h0 x)]
    refine lintegral_congr_ae ?_
    filter_upwards [den_nonneg hsi hdi] with t ht
    rw [ENNReal.ofReal_mul ht, show -t + x = x - t by ring]

theorem Meets.of_mem {x t : ℝ} {si sj : Seg ℝ} (h1 : t ∈ si.inner) (h2 : x - t ∈ sj.inner) : Meets x si sj := by
  rw [mem_inner] at h1 h2
  refine Meets.symm ⟨?_, ?_⟩
  · exact h1.1.trans ((lt_sub_iff' _ _ _).1 h2.1)
  · exact ((sub_lt_iff' _ _ _).1 h2.2).trans h1.2

theorem den_eq_zero {s : Seg ℝ} {x : ℝ} (h : x ∉ s.inner) : den s x = 0 := indicator_of_notMem h _
theorem den_eq {s : Seg ℝ} {x : ℝ} (h : x ∈ s.inner) : den s x = s.fn x := indicator_of_mem h _

theorem isDirac_cases (s : Seg ℝ) : s.isDirac = false ∨ ∃ a m, s = .dirac a m := by
  cases s <;> simp [Seg.isDirac]

theorem meets_dirac {x a m : ℝ} {sj : Seg ℝ} : Meets x (.dirac a m) sj ↔ x - a ∈ sj.inner := by
  rw [mem_inner]; rfl

theorem pairK_left {a m : ℝ} {sj : Seg ℝ} (h : sj.isDirac = false) (x : ℝ) : pairK (.dirac a m) sj x = m * den sj (x - a) := by
  rw [pairK, if_neg (by simp [Seg.isDirac]), if_pos ⟨rfl, h⟩]; rfl

theorem pairK_right {a m : ℝ} {si : Seg ℝ} (h : si.isDirac = false) (x : ℝ) : pairK si (.dirac a m) x = m * den si (x - a) := by
  rw [pairK, if_neg (by simp [Seg.isDirac]), if_neg (by simp [Seg.isDirac]), if_pos ⟨h, rfl⟩]; rfl

theorem atomPair_left {M : Type*} [Zero M] {Φ : ℝ × ℝ → M} {op : ℝ → ℝ → ℝ} {si sj : Seg ℝ} (h : si.isDirac = false) :
    atomPair Φ op si sj = 0 := by
  cases si <;> first | rfl | simp [Seg.isDirac] at h

theorem atomPair_right {M : Type*} [Zero M] {Φ : ℝ × ℝ → M} {op : ℝ → ℝ → ℝ} {si sj : Seg ℝ} (h : sj.isDirac = false) :
    atomPair Φ op si sj = 0 := by
  cases si <;> cases sj <;> first | rfl | simp [Seg.isDirac] at h

theorem sum_dirac_cont {a m : ℝ} (hm : 0 ≤ m) {sj : Seg ℝ} (hs : sj.isDirac = false) (hd : sj.Dens) :
    (∀ᵐ x, 0 ≤ m * den sj (x - a)) ∧ Integrable (fun x => m * den sj (x - a)) ∧
    opLaw (· + ·) (Seg.law (.dirac a m)) sj.law = volume.withDensity fun x => ENNReal.ofReal (m * den sj (x - a)) := by
  have := Seg.law_finite hd
  refine ⟨?_, ?_, ?_⟩
  · have := (measurePreserving_sub_right (volume : Measure ℝ) a).quasiMeasurePreserving.ae (den_nonneg hs hd)
    filter_upwards [this] with x hx using mul_nonneg hm hx
  · exact ((den_integrable hs hd).comp_sub_right a).const_mul m
  · rw [show Seg.law (.dirac a m) = ENNReal.ofReal m • Measure.dirac a from rfl,
      opLaw_dirac_left measurable_sum, den_law hs, map_add_withDensity, smul_withDensity_ofReal hm]

theorem pairSum_spec {P : Par} (hP : ExactQ P.q P.qp) {si sj : Seg ℝ} (hwi : si.WF) (hwj : sj.WF) (hdi : si.Dens) (hdj : sj.Dens) :
    PairSpec (· + ·) Meets (pairSum P) pairK (atomLaw (· + ·)) si sj := by
  have := Seg.law_finite hdi
  have := Seg.law_finite hdj
  rcases isDirac_cases si with hsi | ⟨a, m, rfl⟩
  · rcases isDirac_cases sj with hsj | ⟨b, n, rfl⟩
    · obtain ⟨c1, c2, c3, c4⟩ := conv_dens hsi hsj hdi hdj
      have hk : pairK si sj = cint si sj := by ext x; rw [pairK, if_pos ⟨hsi, hsj⟩]
      refine ⟨?_, by rw [hk]; exact c3, ?_, ?_, ?_⟩
      · rw [hk]; exact .of_forall c2
      · rw [hk, c4, atomLaw, atomPair_left hsi, add_zero]
      · filter_upwards [c1] with x hx hm
        rw [pairSum, if_pos ⟨hsi, hsj⟩, contSum_eq hP hsi hsj hwi hwj hm hx, hk]
      · refine .of_forall fun x hx => ?_
        rw [hk, cint]
        refine (integral_congr_ae (.of_forall fun t => ?_)).trans (integral_zero _ _)
        show den si t * den sj (x - t) = 0
        by_cases h1 : t ∈ si.inner
        · by_cases h2 : x - t ∈ sj.inner
          · exact absurd (Meets.of_mem h1 h2) hx
          · rw [den_eq_zero h2, mul_zero]
        · rw [den_eq_zero h1, zero_mul]
    · obtain ⟨c1, c2, c3⟩ := sum_dirac_cont (a := b) (m := n) hdj hsi hdi
      have hk : pairK si (.dirac b n) = fun x => n * den si (x - b) := by ext x; rw [pairK_right hsi]
      refine ⟨by rw [hk]; exact c1, by rw [hk]; exact c2, ?_, ?_, ?_⟩
      · rw [opLaw_add_comm, c3, hk, atomLaw, atomPair_left hsi, add_zero]
      · refine .of_forall fun x hm => ?_
        have hm' := meets_dirac.1 hm.symm
        rw [hk]
        dsimp only
        rw [den_eq hm', pairSum, if_neg (by simp [Seg.isDirac]), if_neg (by simp [Seg.isDirac]), if_pos ⟨hsi, rfl⟩]
        rfl
      · refine .of_forall fun x hx => ?_
        rw [hk]
        dsimp only
        rw [den_eq_zero fun h => hx (meets_dirac.2 h).symm, mul_zero]
  · rcases isDirac_cases sj with hsj | ⟨b, n, rfl⟩
    · obtain ⟨c1, c2, c3⟩ := sum_dirac_cont (a := a) (m := m) hdi hsj hdj
      have hk : pairK (.dirac a m) sj = fun x => m * den sj (x - a) := by ext x; rw [pairK_left hsj]
      refine ⟨by rw [hk]; exact c1, by rw [hk]; exact c2, ?_, ?_, ?_⟩
      · rw [c3, hk, atomLaw, atomPair_right hsj, add_zero]
      · refine .of_forall fun x hm => ?_
        have hm' := meets_dirac.1 hm
        rw [hk]
        dsimp only
        rw [den_eq hm', pairSum, if_neg (by simp [Seg.isDirac]), if_pos ⟨rfl, hsj⟩]
        rfl
      · refine .of_forall fun x hx => ?_
        rw [hk]
        dsimp only
        rw [den_eq_zero fun h => hx (meets_dirac.2 h), mul_zero]
    · have hk : pairK (.dirac a m) (.dirac b n) = fun _ => 0 := by ext x; simp [pairK, Seg.isDirac]
      have hp : ∀ x, pairSum P x (.dirac a m) (.dirac b n) = .ok 0 := by intro x; simp [pairSum, Seg.isDirac]
      refine ⟨by simp [hk], by simp [hk], ?_, by simp [hk, hp], by simp [hk]⟩
      have hm : 0 ≤ m := hdi
      rw [hk, show Seg.law (.dirac a m) = ENNReal.ofReal m • Measure.dirac a from rfl,
        opLaw_dirac_left measurable_sum, show Seg.law (.dirac b n) = ENNReal.ofReal n • Measure.dirac b from rfl,
        Measure.map_smul, Measure.map_dirac' (measurable_const_add a), smul_smul, ← ENNReal.ofReal_mul hm]
      simp [atomLaw, atomPair, withDensity_zero]

end Conv
end Pacal
