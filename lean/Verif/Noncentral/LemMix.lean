import Verif.Noncentral.Spec
import Verif.Identity.LemFibre
import Verif.Conv.OpLaw
import Mathlib.Analysis.SpecialFunctions.Trigonometric.Series
import Mathlib.Analysis.SpecialFunctions.Gaussian.GaussianIntegral

/-!
Lemmas for `Verif.Noncentral.Props`: Poisson mixtures.
-/

namespace Pacal.Noncentral
open MeasureTheory ProbabilityTheory Standard Identity Set Real

/-- the Poisson weights -/
noncomputable def wt (m : ℝ) (j : ℕ) : ℝ := exp (-m) * m ^ j / j.factorial

theorem wt_nonneg {m : ℝ} (hm : 0 ≤ m) (j : ℕ) : 0 ≤ wt m j := by unfold wt; positivity

theorem mix_eq (m : ℝ) (ν : ℕ → Measure ℝ) : poissonMix m ν = Measure.sum fun j => ENNReal.ofReal (wt m j) • ν j := rfl

theorem mix_map {m : ℝ} {ν : ℕ → Measure ℝ} {g : ℝ → ℝ} (hg : Measurable g) :
    (poissonMix m ν).map g = poissonMix m fun j => (ν j).map g := by
  rw [mix_eq, mix_eq, Measure.map_sum hg.aemeasurable]
  congr 1
  ext1 j
  rw [Measure.map_smul]

theorem mix_left {m : ℝ} {ν : ℕ → Measure ℝ} {ρ : Measure ℝ} [SFinite ρ] [∀ j, SFinite (ν j)] {op : ℝ → ℝ → ℝ}
    (hop : Measurable fun p : ℝ × ℝ => op p.1 p.2) : opLaw op (poissonMix m ν) ρ = poissonMix m fun j => opLaw op (ν j) ρ := by
  rw [mix_eq, mix_eq, opLaw, Measure.prod_sum_left, Measure.map_sum hop.aemeasurable]
  congr 1
  ext1 j
  rw [Measure.prod_smul_left, Measure.map_smul]
  rfl

theorem mix_right {m : ℝ} {ν : ℕ → Measure ℝ} {ρ : Measure ℝ} [SFinite ρ] [∀ j, SFinite (ν j)] {op : ℝ → ℝ → ℝ}
    (hop : Measurable fun p : ℝ × ℝ => op p.1 p.2) : opLaw op ρ (poissonMix m ν) = poissonMix m fun j => opLaw op ρ (ν j) := by
  rw [mix_eq, mix_eq, opLaw, Measure.prod_sum_right, Measure.map_sum hop.aemeasurable]
  congr 1
  ext1 j
  rw [Measure.prod_smul_right, Measure.map_smul]
  rfl

theorem mix_zero (ν : ℕ → Measure ℝ) : poissonMix 0 ν = ν 0 := by
  rw [mix_eq]
  ext s hs
  rw [Measure.sum_apply _ hs, tsum_eq_single 0]
  · simp [wt]
  · intro j hj
    simp [wt, hj]

theorem mix_congr {m : ℝ} {ν ρ : ℕ → Measure ℝ} (h : ∀ j, ν j = ρ j) : poissonMix m ν = poissonMix m ρ := by
  rw [show ν = ρ from funext h]

theorem wt_add {a b : ℝ} (ha : 0 ≤ a) (hb : 0 ≤ b) (n : ℕ) :
    ∑ p ∈ Finset.antidiagonal n, ENNReal.ofReal (wt a p.1) * ENNReal.ofReal (wt b p.2) = ENNReal.ofReal (wt (a + b) n) := by
  have : ∀ p ∈ Finset.antidiagonal n, ENNReal.ofReal (wt a p.1) * ENNReal.ofReal (wt b p.2) = ENNReal.ofReal (wt a p.1 * wt b p.2) :=
    fun p _ => (ENNReal.ofReal_mul (wt_nonneg ha _)).symm
  rw [Finset.sum_congr rfl this, ← ENNReal.ofReal_sum_of_nonneg fun p _ => mul_nonneg (wt_nonneg ha _) (wt_nonneg hb _)]
  congr 1
  unfold wt
  rw [(Commute.all a b).add_pow', neg_add, exp_add, Finset.mul_sum, Finset.sum_div]
  refine Finset.sum_congr rfl fun p hp => ?_
  obtain rfl := Finset.mem_antidiagonal.1 hp
  have h := Nat.add_choose_mul_factorial_mul_factorial p.1 p.2
  rw [← h, nsmul_eq_mul, Nat.choose_symm_add]
  push_cast
  have h1 : (p.1.factorial : ℝ) ≠ 0 := Nat.cast_ne_zero.2 (Nat.factorial_ne_zero _)
  have h2 : (p.2.factorial : ℝ) ≠ 0 := Nat.cast_ne_zero.2 (Nat.factorial_ne_zero _)
  have h3 : ((p.1 + p.2).choose p.2 : ℝ) ≠ 0 := Nat.cast_ne_zero.2 (Nat.choose_pos (Nat.le_add_left _ _)).ne'
  field_simp

theorem mix_mix {a b : ℝ} (ha : 0 ≤ a) (hb : 0 ≤ b) {ν κ ρ : ℕ → Measure ℝ} [∀ j, SFinite (ν j)] [∀ j, SFinite (κ j)] {op : ℝ → ℝ → ℝ}
    (hop : Measurable fun p : ℝ × ℝ => op p.1 p.2) (h : ∀ i j, opLaw op (ν i) (κ j) = ρ (i + j)) :
    opLaw op (poissonMix a ν) (poissonMix b κ) = poissonMix (a + b) ρ := by
  have : SFinite (poissonMix b κ) := by rw [mix_eq]; infer_instance
  rw [mix_left hop]
  simp_rw [mix_right hop, h]
  ext s hs
  simp only [mix_eq]
  rw [Measure.sum_apply _ hs, Measure.sum_apply _ hs]
  simp only [Measure.smul_apply, Measure.sum_apply _ hs, smul_eq_mul, ← ENNReal.tsum_mul_left, ← mul_assoc]
  rw [← ENNReal.tsum_prod (f := fun i j => ENNReal.ofReal (wt a i) * ENNReal.ofReal (wt b j) * ρ (i + j) s),
    ← Equiv.tsum_eq Finset.HasAntidiagonal.sigmaAntidiagonalEquivProd, ENNReal.tsum_sigma']
  refine tsum_congr fun n => ?_
  rw [tsum_fintype, ← wt_add ha hb n, Finset.sum_mul]
  refine Eq.trans ?_ (Finset.sum_coe_sort (Finset.antidiagonal n)
    fun p => ENNReal.ofReal (wt a p.1) * ENNReal.ofReal (wt b p.2) * ρ n s)
  refine Finset.sum_congr rfl fun p _ => ?_
  have := Finset.mem_antidiagonal.1 p.2
  simp only [Finset.HasAntidiagonal.sigmaAntidiagonalEquivProd_apply]
  rw [this]

end Pacal.Noncentral
