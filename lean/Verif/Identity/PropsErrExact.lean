import Verif.Identity.LemErrExact
import Verif.Identity.LemErrEx
import Verif.Identity.PropsExact

/-!
# C91 with exact comparisons

For the expressions of the class `Defined`, given by their form alone: the error of the result in terms of the errors at the nodes, and in
terms of the number of nodes.
-/

namespace Pacal.Identity
open MeasureTheory ProbabilityTheory Standard Set

variable {M : Machine} {replace : Expr → PF ℝ → PF ℝ} {δ : Expr → ℝ}

/-- **C91, exact comparisons.** The probabilities of all events are exact up to `bound δ e`. -/
theorem C91_unlimited_partial (hM : Unlimited M) (hA : Accurate M replace δ) {e : Expr} (h : Defined M.neg0 e) (hb : bound δ e < 1) :
    ∃ r, e.runWith M replace = some r ∧ PF.WF M.env.eps r ∧ PF.Dens r ∧ Within (bound δ e) (PF.law r) (exprLaw e) :=
  C91_errors_partial hM.toMachineOK hA (defined_nodes hM hA h hb).1 hb

/-- **C91, linear growth.** If every intermediate density has an error of at most `d`, the probabilities of all events are exact up to
`2 d` for each node of the expression. -/
theorem C91_linear_partial (hM : Unlimited M) (hA : Accurate M replace δ) {d : ℝ} (hδ : ∀ e, δ e ≤ d) {e : Expr}
    (h : Defined M.neg0 e) (hb : 2 * nodes e * d < 1) :
    ∃ r, e.runWith M replace = some r ∧ PF.WF M.env.eps r ∧ PF.Dens r ∧ Within (2 * nodes e * d) (PF.law r) (exprLaw e) := by
  have hd : 0 ≤ d := (hA.nonneg e).trans (hδ e)
  have hl := bound_linear hd hA.nonneg hδ (e := e) (by linarith)
  obtain ⟨r, h1, h2, h3, h4⟩ := C91_unlimited_partial hM hA h (hl.trans_lt hb)
  exact ⟨r, h1, h2, h3, h4.mono hl⟩

/-- **C91, total mass**: the result integrates to one up to the same error (the check `int_error` of the code, C74). -/
theorem C91_mass_partial (hM : Unlimited M) (hA : Accurate M replace δ) {e : Expr} (h : Defined M.neg0 e) (hb : bound δ e < 1) :
    ∃ r, e.runWith M replace = some r ∧ |(PF.law r).real univ - 1| ≤ bound δ e := by
  obtain ⟨r, h1, -, -, h2⟩ := C91_unlimited_partial hM hA h hb
  have := nodes_prob (defined_nodes hM hA h hb).1
  refine ⟨r, h1, ?_⟩
  have := h2 univ MeasurableSet.univ
  rwa [probReal_univ (μ := exprLaw e)] at this

/-- **C91, no errors**: if every intermediate density is exact, the law is the law of the expression. -/
theorem C91_exact_partial (hM : Unlimited M) (hA : Accurate M replace fun _ => 0) {e : Expr} (h : Defined M.neg0 e) :
    ∃ r, e.runWith M replace = some r ∧ PF.law r = exprLaw e := by
  have hb : bound (fun _ => 0) e = 0 :=
    le_antisymm (by simpa using bound_linear (δ := fun _ => 0) (d := 0) le_rfl (fun _ => le_rfl) (fun _ => le_rfl) (e := e) (by simp))
      (bound_nonneg (fun _ => le_rfl) e)
  obtain ⟨r, h1, -, h3, h2⟩ := C91_unlimited_partial hM hA h (by rw [hb]; exact one_pos)
  have := nodes_prob (defined_nodes hM hA h (by rw [hb]; exact one_pos)).1
  have := PF.law_finite h3
  refine ⟨r, h1, Measure.ext fun S hS => ?_⟩
  have := h2 S hS
  rw [hb] at this
  have := sub_eq_zero.1 (abs_eq_zero.1 (le_antisymm this (abs_nonneg _)))
  exact (measureReal_eq_measureReal_iff).1 this

/-! ### the hypotheses can be met -/

/-- all densities come out too small by a thousandth; the expression has 24 nodes -/
example : ∃ r, exExpr.runWith ideal (fun _ => shrink) = some r ∧ Within (12 / 125) (PF.law r) (exprLaw exExpr) := by
  obtain ⟨r, h1, -, -, h2⟩ := C91_linear_partial ideal_ok shrink_accurate (d := 1 / 500) (fun _ => le_rfl) (exExpr_ok _)
    (by norm_num [exExpr, nodes])
  refine ⟨r, h1, h2.mono ?_⟩
  norm_num [exExpr, nodes]

/-- the replacement is not the identity -/
example : shrink [.fin .none 0 1 fun _ => 1] = [.fin .none 0 1 fun _ => 999 / 1000 * 1] := rfl

end Pacal.Identity
