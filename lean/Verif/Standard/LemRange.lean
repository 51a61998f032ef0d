import Verif.Standard.LemFun

/-!
Lemmas for `Verif.Standard.PropsRange`.
-/

namespace Pacal.Standard
open MeasureTheory ProbabilityTheory Real Filter Topology Set

/-- valid parameters (of the chi-square distribution those for which the density is built, see
`C46_violated_chiSquare_small_df`) -/
def Kind.Valid : Kind → Prop
  | .normal _ sigma => 0 < sigma
  | .uniform a b => a < b
  | .trapezoidal a b c d => a ≤ b ∧ b ≤ c ∧ c ≤ d ∧ a < d
  | .cauchy g _ => 0 < g
  | .chiSquare df => 1 ≤ df
  | .exponential lmbda => 0 < lmbda
  | .gamma k theta => 0 < k ∧ 0 < theta
  | .beta a b => 0 < a ∧ 0 < b
  | .pareto alpha xmin => 0 < alpha ∧ 0 < xmin
  | .levy c _ => 0 < c
  | .laplace lmbda _ => 0 < lmbda
  | .studentT df => 0 < df
  | .semicircle R => 0 < R
  | .fDistr df1 df2 => 0 < df1 ∧ 0 < df2
  | .weibull k lmbda => 0 < k ∧ 0 < lmbda
  | .gumbel _ sigma => 0 < sigma
  | .frechet alpha s _ => 0 < alpha ∧ 0 < s
  | .logLogistic k s => 0 < k ∧ 0 < s
  | .mollifier epsilon => 0 < epsilon

/-- the points outside an interval of extended reals -/
def outside (r : EReal × EReal) : Set ℝ := {x : ℝ | ¬ (r.1 ≤ (x : EReal) ∧ (x : EReal) ≤ r.2)}

theorem outside_line : outside (⊥, ⊤) = ∅ := by
  ext x
  simp [outside]

theorem null_of_density {f : ℝ → ℝ} (hm : Measurable f) {S : Set ℝ} (h : ∀ x ∈ S, f x = 0) :
    (volume.withDensity fun x => ENNReal.ofReal (f x)) S = 0 := by
  rw [withDensity_apply_eq_zero hm.ennreal_ofReal]
  have : {x | ENNReal.ofReal (f x) ≠ 0} ∩ S = ∅ := by
    ext x
    simp only [mem_inter_iff, mem_ofPred_eq, mem_empty_iff_false, iff_false, not_and]
    intro h1 h2
    exact h1 (by rw [h x h2, ENNReal.ofReal_zero])
  rw [this, measure_empty]

theorem outside_half {a x : ℝ} (h : x ∈ outside ((a : EReal), ⊤)) : x < a := by
  by_contra h'
  exact h ⟨EReal.coe_le_coe_iff.2 (not_lt.1 h'), le_top⟩

theorem outside_half0 {x : ℝ} (h : x ∈ outside ((0 : EReal), ⊤)) : x < 0 := outside_half (a := 0) h

theorem outside_fin {a b x : ℝ} (h : x ∈ outside ((a : EReal), (b : EReal))) : x ∉ Icc a b := fun h' =>
  h ⟨EReal.coe_le_coe_iff.2 h'.1, EReal.coe_le_coe_iff.2 h'.2⟩

theorem Rep.null {eps : ℝ} {r : Option (PF ℝ)} {μ : Measure ℝ} (h : Rep eps r μ) {S : Set ℝ} (hS : μ S = 0) :
    ∃ l, r = some l ∧ PF.law l S = 0 := by
  obtain ⟨l, h1, _, _, h4⟩ := h
  exact ⟨l, h1, by rw [h4, hS]⟩

/-- the environment of the program with an exact `lgamma` -/
noncomputable def exactEnv : Env := ⟨1e-14, -1e-2, 709.78, exactLg⟩

end Pacal.Standard
