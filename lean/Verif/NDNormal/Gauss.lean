import Mathlib.Analysis.Matrix.PosDef
import Mathlib.LinearAlgebra.Matrix.SchurComplement
import Mathlib.Probability.Distributions.Gaussian.Real

/-!
The density of the multivariate normal law: reindexing, factorisation into a margin and a conditional density, and the
integral over one variable.
-/

namespace Pacal.NDNormal
open Matrix Real MeasureTheory

variable {ι κ : Type} [Fintype ι] [DecidableEq ι] [Fintype κ] [DecidableEq κ]

/-- the density of the normal law with mean 0 and covariance matrix `S` -/
noncomputable def gdens (S : Matrix ι ι ℝ) (x : ι → ℝ) : ℝ :=
  1 / √(S.det * (2 * π) ^ Fintype.card ι) * exp (-(1/2) * (x ⬝ᵥ S⁻¹ *ᵥ x))

theorem gdens_reindex (e : κ ≃ ι) (S : Matrix ι ι ℝ) (x : ι → ℝ) : gdens (S.submatrix e e) (x ∘ e) = gdens S x := by
  rw [gdens, gdens, det_submatrix_equiv_self, Fintype.card_congr e, inv_submatrix_equiv]
  congr 3
  rw [submatrix_mulVec_equiv]
  have : (x ∘ e) ∘ e.symm = x := by
    funext i
    simp
  rw [this]
  exact comp_equiv_dotProduct_comp_equiv _ _ e

/-- Schur complement -/
noncomputable def schur (A : Matrix ι ι ℝ) (B : Matrix ι κ ℝ) (D : Matrix κ κ ℝ) : Matrix ι ι ℝ := A - B * D⁻¹ * Bᵀ

theorem det_blocks (A : Matrix ι ι ℝ) (B : Matrix ι κ ℝ) {D : Matrix κ κ ℝ} (hD : D.det ≠ 0) :
    (fromBlocks A B Bᵀ D).det = D.det * (schur A B D).det := by
  have : Invertible D := invertibleOfIsUnitDet D (isUnit_iff_ne_zero.2 hD)
  rw [det_fromBlocks₂₂, invOf_eq_nonsing_inv]
  rfl

theorem inv_blocks (A : Matrix ι ι ℝ) (B : Matrix ι κ ℝ) {D : Matrix κ κ ℝ} (hD : D.det ≠ 0)
    (hQ : (schur A B D).det ≠ 0) (x : ι → ℝ) (y : κ → ℝ) :
    (fromBlocks A B Bᵀ D)⁻¹ *ᵥ Sum.elim x y = Sum.elim ((schur A B D)⁻¹ *ᵥ (x - (B * D⁻¹) *ᵥ y))
      (D⁻¹ *ᵥ y - (D⁻¹ * Bᵀ) *ᵥ (schur A B D)⁻¹ *ᵥ (x - (B * D⁻¹) *ᵥ y)) := by
  have hD' : IsUnit D.det := isUnit_iff_ne_zero.2 hD
  have hQ' : IsUnit (schur A B D).det := isUnit_iff_ne_zero.2 hQ
  have hS : IsUnit (fromBlocks A B Bᵀ D).det := by
    rw [det_blocks A B hD]
    exact hD'.mul hQ'
  obtain ⟨u, hu⟩ : ∃ u, u = (schur A B D)⁻¹ *ᵥ (x - (B * D⁻¹) *ᵥ y) := ⟨_, rfl⟩
  have hQu : schur A B D *ᵥ u = x - (B * D⁻¹) *ᵥ y := by
    rw [hu, mulVec_mulVec, mul_nonsing_inv _ hQ', one_mulVec]
  rw [← hu]
  have h : fromBlocks A B Bᵀ D *ᵥ Sum.elim u (D⁻¹ *ᵥ y - (D⁻¹ * Bᵀ) *ᵥ u) = Sum.elim x y := by
    rw [fromBlocks_mulVec]
    congr 1
    · simp only [Sum.elim_comp_inl, Sum.elim_comp_inr]
      rw [mulVec_sub, mulVec_mulVec, mulVec_mulVec, ← Matrix.mul_assoc]
      rw [schur, sub_mulVec] at hQu
      have := hQu
      rw [sub_eq_sub_iff_add_eq_add] at this
      funext i
      have hi := congrFun this i
      simp only [Pi.add_apply, Pi.sub_apply] at hi ⊢
      linarith
    · simp only [Sum.elim_comp_inl, Sum.elim_comp_inr]
      rw [mulVec_sub, mulVec_mulVec, mulVec_mulVec, ← Matrix.mul_assoc, mul_nonsing_inv _ hD', one_mulVec, Matrix.one_mul]
      simp
  rw [← h, mulVec_mulVec, nonsing_inv_mul _ hS, one_mulVec]

/-- the density of a normal law is the density of a margin times the density of the conditional normal law -/
theorem gdens_blocks (A : Matrix ι ι ℝ) (B : Matrix ι κ ℝ) {D : Matrix κ κ ℝ} (hDt : Dᵀ = D) (hD : 0 < D.det)
    (hQ : 0 < (schur A B D).det) (x : ι → ℝ) (y : κ → ℝ) :
    gdens (fromBlocks A B Bᵀ D) (Sum.elim x y) = gdens (schur A B D) (x - (B * D⁻¹) *ᵥ y) * gdens D y := by
  have hdot : Sum.elim x y ⬝ᵥ (fromBlocks A B Bᵀ D)⁻¹ *ᵥ Sum.elim x y =
      (x - (B * D⁻¹) *ᵥ y) ⬝ᵥ (schur A B D)⁻¹ *ᵥ (x - (B * D⁻¹) *ᵥ y) + y ⬝ᵥ D⁻¹ *ᵥ y := by
    rw [inv_blocks A B hD.ne' hQ.ne', sumElim_dotProduct_sumElim]
    obtain ⟨u, hu⟩ : ∃ u, u = (schur A B D)⁻¹ *ᵥ (x - (B * D⁻¹) *ᵥ y) := ⟨_, rfl⟩
    rw [← hu, sub_dotProduct, dotProduct_sub]
    have h1 : y ⬝ᵥ (D⁻¹ * Bᵀ) *ᵥ u = ((B * D⁻¹) *ᵥ y) ⬝ᵥ u := by
      rw [dotProduct_mulVec]
      congr 1
      have : D⁻¹ * Bᵀ = (B * D⁻¹)ᵀ := by
        rw [transpose_mul, transpose_nonsing_inv, hDt]
      rw [this, vecMul_transpose]
    rw [h1]
    ring
  rw [gdens, gdens, gdens, hdot, det_blocks A B hD.ne', Fintype.card_sum]
  have h2 : D.det * (schur A B D).det * (2 * π) ^ (Fintype.card ι + Fintype.card κ) =
      ((schur A B D).det * (2 * π) ^ Fintype.card ι) * (D.det * (2 * π) ^ Fintype.card κ) := by
    rw [pow_add]
    ring
  rw [h2, sqrt_mul (by positivity), mul_add, exp_add]
  ring

theorem gdens_unit {Q : Matrix Unit Unit ℝ} (hq : 0 < Q () ()) (c t : ℝ) :
    gdens Q (fun _ => t - c) = ProbabilityTheory.gaussianPDFReal c (Real.toNNReal (Q () ())) t := by
  unfold gdens
  rw [ProbabilityTheory.gaussianPDFReal, Real.coe_toNNReal _ hq.le, det_unique, Fintype.card_unit, pow_one]
  have h : Q⁻¹ = Matrix.of fun _ _ => (Q () ())⁻¹ := by
    rw [inv_subsingleton]
    ext i j
    simp [diagonal_apply]
  rw [h]
  have hd : ((fun _ => t - c : Unit → ℝ) ⬝ᵥ (Matrix.of fun _ _ => (Q () ())⁻¹ : Matrix Unit Unit ℝ) *ᵥ fun _ => t - c) =
      (t - c) ^ 2 / Q () () := by
    simp [dotProduct, mulVec]
    ring
  rw [hd, one_div]
  congr 2
  · congr 1
    exact mul_comm _ _
  · field_simp

/-- the integral over one variable of a normal density -/
theorem integral_gdens (A : Matrix Unit Unit ℝ) (B : Matrix Unit κ ℝ) {D : Matrix κ κ ℝ}
    (hS : (fromBlocks A B Bᵀ D).PosDef) (y : κ → ℝ) :
    ∫ t, gdens (fromBlocks A B Bᵀ D) (Sum.elim (fun _ => t) y) = gdens D y := by
  have hDp : D.PosDef := hS.submatrix (e := Sum.inr) Sum.inr_injective
  have hD : 0 < D.det := hDp.det_pos
  have hDt : Dᵀ = D := by
    have := hDp.1
    rwa [IsHermitian, conjTranspose_eq_transpose_of_trivial] at this
  have hQ : 0 < (schur A B D).det := by
    have := hS.det_pos
    rw [det_blocks _ _ hD.ne'] at this
    exact (pos_iff_pos_of_mul_pos this).1 hD
  have hQ' : 0 < schur A B D () () := by
    rw [det_unique] at hQ
    exact hQ
  have h : ∀ t, gdens (fromBlocks A B Bᵀ D) (Sum.elim (fun _ => t) y) =
      ProbabilityTheory.gaussianPDFReal (((B * D⁻¹) *ᵥ y) ()) (Real.toNNReal (schur A B D () ())) t * gdens D y := by
    intro t
    rw [gdens_blocks _ _ hDt hD hQ, ← gdens_unit hQ']
    rfl
  simp only [h]
  rw [integral_mul_const, ProbabilityTheory.integral_gaussianPDFReal_eq_one _ (by simpa using hQ'), one_mul]

end Pacal.NDNormal
