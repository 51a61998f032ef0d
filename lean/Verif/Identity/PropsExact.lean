import Verif.Identity.LemExact
import Verif.Identity.LemPos
import Verif.Conv.SumExample

/-!
# C68 with exact comparisons

`C68_expression_partial` assumes at every node that the computed break points are far enough apart and that summands have no gaps.
With exact comparisons these conditions hold for every expression of the class `Defined`, which is described by the form of the
expression alone.
-/

namespace Pacal.Identity
open MeasureTheory ProbabilityTheory Standard Set

/-- **C68, exact comparisons.** Sums, differences, products, quotients, minima and maxima of any depth of standard distributions and
functions of them, and of tables of probabilities, are evaluated to a density with the right law. -/
theorem C68_unlimited_partial {M : Machine} (hM : Unlimited M) {e : Expr} (h : Defined M.neg0 e) :
    ∃ r, e.run M = some r ∧ PF.WF M.env.eps r ∧ PF.Dens r ∧ PF.law r = exprLaw e :=
  C68_expression_partial hM.toMachineOK (defined_ok hM h).1

/-- **C68, no spurious atoms.** The density of an expression without atoms has no atoms. -/
theorem C68_no_atoms_partial {M : Machine} (hM : Unlimited M) {e : Expr} (h : Defined M.neg0 e) (hc : Cont e) {r : PF ℝ}
    (hr : e.run M = some r) : ∀ a m, Seg.dirac a m ∉ r := fun a m => not_dirac (((defined_ok hM h).2 r hr).cont hc) a m

/-- **C68, signs.** The computed density of a nonnegative expression starts at or above 0. -/
theorem C68_nonneg_partial {M : Machine} (hM : Unlimited M) {e : Expr} (h : Defined M.neg0 e) (hc : Cont e) (hn : Nonneg M.neg0 e)
    {r : PF ℝ} (hr : e.run M = some r) : ∀ s ∈ r, (Ext.fin 0 : Ext ℝ) ≤ s.lo := ((defined_ok hM h).2 r hr).pos (cont_plain hc) hn

/-- **C68, no spurious gaps.** The pieces of the computed density of an expression without gaps cover an interval. -/
theorem C68_no_gaps_partial {M : Machine} (hM : Unlimited M) {e : Expr} (h : Defined M.neg0 e) (hc : Cont e) (hg : Gapless M.neg0 e)
    {r : PF ℝ} (hr : e.run M = some r) {x y z : ℝ} (hx : ∃ s ∈ r, s.lo ≤ .fin x ∧ .fin x ≤ s.hi)
    (hy : ∃ s ∈ r, s.lo ≤ .fin y ∧ .fin y ≤ s.hi) (h1 : x ≤ z) (h2 : z ≤ y) : ∃ s ∈ r, s.lo ≤ .fin z ∧ .fin z ≤ s.hi := by
  obtain ⟨w, -, -, ne⟩ := run_facts hM.toMachineOK (defined_ok hM h).1 hr
  have s := (defined_ok hM h).2 r hr
  have : Tidy r := ⟨ne, s.cont hc, (s.hole hg).1, (s.hole hg).2⟩
  exact this.joined w (.fin x) (.fin y) (.fin z) hx hy (extFin_le.2 h1) (extFin_le.2 h2)

/-! ### the hypotheses can be met -/

/-- a machine with exact comparisons -/
noncomputable def ideal : Machine :=
  ⟨⟨0, -1e-2, 709.78, exactLg⟩, ⟨Conv.exPar.q, Conv.exPar.qp, 0, 0, 0⟩, fun _ => 1, fun _ _ => .none, false, false⟩

theorem ideal_ok : Unlimited ideal :=
  ⟨⟨le_refl _, rfl, le_refl _, fun _ _ => rfl, Conv.exPar_exact⟩, rfl, rfl⟩

/-- `|min(N(0,1) / sqrt(chi²(3) / 3), |U(0,1)| + U(0,1)²) * exp(C) - max(log(Pareto(2, 1) * exp(atan(C))), L)|`, the variables `C` with
Cauchy distribution and `L` with Laplace distribution -/
noncomputable def exExpr : Expr :=
  .step .abs (.sub (.mul (.min (.div (.dist (.normal 0 1)) (.step (.pow (1 / 2)) (.step (.shiftScale 0 (1 / 3)) (.dist (.chiSquare 3)))))
    (.add (.step .abs (.dist (.uniform 0 1))) (.step .square (.dist (.uniform 0 1))))) (.step .exp (.dist (.cauchy 1 0))))
    (.max (.step .log (.mul (.dist (.pareto 2 1)) (.step .exp (.step .atan (.dist (.cauchy 1 0)))))) (.dist (.laplace 1 0))))

theorem exExpr_ok (neg0 : Bool) : Defined neg0 exExpr := by
  norm_num [exExpr, Defined, Cont, NotZero, ZeroFree, TableOK, Kind.Valid, Exact, StepOK, Gapless, StepGapless, Nonneg, StepNonneg, KindPos]

example : ∃ r, exExpr.run ideal = some r ∧ PF.law r = exprLaw exExpr ∧ PF.law r univ = 1 := by
  obtain ⟨r, h1, -, -, h2⟩ := C68_unlimited_partial ideal_ok (exExpr_ok _)
  have := expr_prob (defined_ok ideal_ok (exExpr_ok _)).1
  exact ⟨r, h1, h2, by rw [h2]; exact measure_univ⟩

example : Nonneg ideal.neg0 exExpr ∧ Gapless ideal.neg0 exExpr ∧ Cont exExpr := by
  simp [exExpr, Nonneg, StepNonneg, Gapless, StepGapless, Cont]

/-- a mixed distribution: `max(min(N(0,1) + D, 1), 0)` with a coin `D` -/
noncomputable def exMixed : Expr :=
  .max (.min (.add (.dist (.normal 0 1)) (.discrete [(1, 1 / 2), (0, 1 / 2)])) (.discrete [(1, 1)])) (.discrete [(0, 1)])

theorem exMixed_ok (neg0 : Bool) : Defined neg0 exMixed := by
  norm_num [exMixed, Defined, TableOK, Kind.Valid, Exact, Gapless]

example : ∃ r, exMixed.run ideal = some r ∧ PF.law r = exprLaw exMixed := by
  obtain ⟨r, h1, -, -, h2⟩ := C68_unlimited_partial ideal_ok (exMixed_ok _)
  exact ⟨r, h1, h2⟩

end Pacal.Identity
