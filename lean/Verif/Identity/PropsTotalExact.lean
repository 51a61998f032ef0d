import Verif.Identity.LemTotalAtoms

/-!
# C95 with exact comparisons

For the expressions of the class `Defined`, given by their form alone: the error of the result in terms of the areas of the errors of
quadrature and interpolation at the nodes, and in terms of the number of nodes.
-/

namespace Pacal.Identity
open MeasureTheory Set

variable {M : Machine} {replace : Expr → PF ℝ → PF ℝ} {δ : Expr → ℝ}

/-- **C95, exact comparisons.** Nothing is assumed of the intermediate results: if the integrals and the interpolants that are computed
on the way have errors of area at most `δ`, the probabilities of all events are exact up to `bound δ e`. -/
theorem C95_unlimited_partial (hM : ArithmeticOK M) (h0 : M.env.eps = 0) (h1 : M.par.brkEps = 0) (hδ : ∀ e, 0 ≤ δ e) {e : Expr}
    (h : Defined M.neg0 e) (hB : Budget M replace δ e) (hb : bound δ e < 1) :
    ∃ r, e.runWith M replace = some r ∧ PF.WF M.env.eps r ∧ PF.Dens r ∧ Within (bound δ e) (PF.law r) (exprLaw e) :=
  C95_total_partial hM hδ (defined_total hM h0 h1 hδ h hB hb).1 hB hb

/-- **C95, linear growth.** If the errors at every node have an area of at most `d`, the probabilities of all events are exact up to
`2 d` for each node of the expression. -/
theorem C95_linear_partial (hM : ArithmeticOK M) (h0 : M.env.eps = 0) (h1 : M.par.brkEps = 0) {d : ℝ} (hd : 0 ≤ d) {e : Expr}
    (h : Defined M.neg0 e) (hB : Budget M replace (fun _ => d) e) (hb : 2 * nodes e * d < 1) :
    ∃ r, e.runWith M replace = some r ∧ PF.WF M.env.eps r ∧ PF.Dens r ∧ Within (2 * nodes e * d) (PF.law r) (exprLaw e) := by
  have hl := bound_linear (δ := fun _ => d) hd (fun _ => hd) (fun _ => le_rfl) (e := e) (by linarith)
  obtain ⟨r, r1, r2, r3, r4⟩ := C95_unlimited_partial hM h0 h1 (fun _ => hd) h hB (hl.trans_lt hb)
  exact ⟨r, r1, r2, r3, r4.mono hl⟩

/-- **C95, cdf.** The cdf of the result is exact up to the same bound at every point. -/
theorem C95_cdf_partial (hM : ArithmeticOK M) (h0 : M.env.eps = 0) (h1 : M.par.brkEps = 0) (hδ : ∀ e, 0 ≤ δ e) {e : Expr}
    (h : Defined M.neg0 e) (hB : Budget M replace δ e) (hb : bound δ e < 1) :
    ∃ r, e.runWith M replace = some r ∧ ∀ x, |(PF.law r).real (Iic x) - (exprLaw e).real (Iic x)| ≤ bound δ e := by
  obtain ⟨r, r1, -, -, r4⟩ := C95_unlimited_partial hM h0 h1 hδ h hB hb
  exact ⟨r, r1, fun x => r4 _ measurableSet_Iic⟩

/-! ### the hypotheses can be met -/

/-- all integrals are too large by a thousandth; the distribution of `exp(U(0, 1) + U(0, 1))` is exact up to 1/500 -/
example : ∃ r, twoU.runWith biased (fun _ l => l) = some r ∧ Within (1 / 500) (PF.law r) (exprLaw twoU) := by
  have hb : bound sumError twoU = 1 / 500 := by norm_num [twoU, bound, sumError]
  obtain ⟨r, h1, -, -, h2⟩ := C95_unlimited_partial (δ := sumError) biased_ok rfl rfl (by intro e; cases e <;> norm_num [sumError])
    (twoU_defined _) biased_budget (by rw [hb]; norm_num)
  exact ⟨r, h1, hb ▸ h2⟩

theorem ideal_exact {e : Expr} (h : Defined ideal.neg0 e) (hB : Budget ideal (fun _ l => l) (fun _ => 0) e) :
    ∃ r, e.runWith ideal (fun _ l => l) = some r ∧ Within 0 (PF.law r) (exprLaw e) := by
  have hb := bound_zero e
  obtain ⟨r, h1, -, -, h2⟩ := C95_unlimited_partial (δ := fun _ => 0) ideal_arith rfl rfl (fun _ => le_rfl) h hB (by rw [hb]; exact one_pos)
  rw [hb] at h2
  exact ⟨r, h1, h2⟩

/-- a fair coin with the values 0 and 1/2 -/
noncomputable def coin : Expr := .discrete [(0, 1 / 2), (1 / 2, 1 / 2)]

/-- minimum and maximum of arguments with and without atoms: `max(min(U(0, 1), D), D')`, computed with exact integrals, is exact -/
example : ∃ r, (Expr.max (.min (.dist (.uniform 0 1)) coin) coin).runWith ideal (fun _ l => l) = some r ∧
    Within 0 (PF.law r) (exprLaw (.max (.min (.dist (.uniform 0 1)) coin) coin)) := by
  have hu : Defined ideal.neg0 (.dist (.uniform 0 1)) := by
    refine ⟨?_, ?_⟩ <;> norm_num [Standard.Kind.Valid, Exact]
  have hc : Defined ideal.neg0 coin := by
    refine ⟨?_, ?_, ?_⟩ <;> norm_num
  have hd : Defined ideal.neg0 (.max (.min (.dist (.uniform 0 1)) coin) coin) := ⟨⟨hu, hc⟩, hc⟩
  have hm := ideal_min hu hc (fun _ => rfl) fun _ => rfl
  have hB := ideal_max (a := .min (.dist (.uniform 0 1)) coin) ⟨hu, hc⟩ hc hm fun _ => rfl
  exact ideal_exact hd hB

/-- a factor with an atom at 0: `min(U(0, 1) * D, D')` -/
example : ∃ r, (Expr.min (.mul (.dist (.uniform 0 1)) coin) coin).runWith ideal (fun _ l => l) = some r ∧
    Within 0 (PF.law r) (exprLaw (.min (.mul (.dist (.uniform 0 1)) coin) coin)) := by
  have hu : Defined ideal.neg0 (.dist (.uniform 0 1)) := by
    refine ⟨?_, ?_⟩ <;> norm_num [Standard.Kind.Valid, Exact]
  have hc : Defined ideal.neg0 coin := by
    refine ⟨?_, ?_, ?_⟩ <;> norm_num
  have nu : NotZero (.dist (.uniform 0 1)) := trivial
  have nc : NotZero coin := ⟨(1 / 2, 1 / 2), by simp, by norm_num, by norm_num⟩
  have hm : Defined ideal.neg0 (.mul (.dist (.uniform 0 1)) coin) := ⟨hu, hc, nu, nc⟩
  exact ideal_exact ⟨hm, hc⟩ (ideal_min hm hc (ideal_mul hu hc nu nc (fun _ => rfl) fun _ => rfl) fun _ => rfl)

end Pacal.Identity
