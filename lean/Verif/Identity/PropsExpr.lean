import Verif.Identity.LemExpr
import Verif.Conv.PropsSum
import Verif.Conv.PropsProd
import Verif.Conv.PropsDiv
import Verif.Conv.PropsMinMax

/-!
# C68: the density of an arithmetic expression

Full statement: evaluating an expression of independent random variables with standard distributions, of any depth, gives a
density whose law is the law of the expression.

The code violates this in the cases recorded at C12-C23 and C46 (`C12_violated_*`, `C13_violated_*`, …); the theorem
excludes them at every node by the conditions of `ExprOK`.
-/

namespace Pacal.Identity
open MeasureTheory ProbabilityTheory Standard Set

/-- **C68.** The evaluation succeeds, the result is a well-formed density and its law is the law of the expression. -/
theorem C68_expression_partial {M : Machine} (hM : MachineOK M) : ∀ {e : Expr}, ExprOK M e →
    ∃ r, e.run M = some r ∧ PF.WF M.env.eps r ∧ PF.Dens r ∧ PF.law r = exprLaw e
  | .dist k, h => kind_rep hM.eps hM.lg h.1 h.2
  | .discrete t, h => C25_law_partial hM.eps h.2.2 h.1
  | .step s e, h => by
    obtain ⟨l, e1, w, d, e2⟩ := C68_expression_partial hM h.1
    obtain ⟨hc, hs⟩ := h.2 l e1
    obtain ⟨r, e3, w', d', e4⟩ := step_sound M hM.eps w d hc s hs
    exact ⟨r, by rw [Expr.run, e1]; exact e3, w', d', by rw [e4, e2]; rfl⟩
  | .add a b, h => by
    obtain ⟨f, f1, f2, f3, f4⟩ := C68_expression_partial hM h.1
    obtain ⟨g, g1, g2, g3, g4⟩ := C68_expression_partial hM h.2.1
    have := expr_prob h.1; have := expr_prob h.2.1
    obtain ⟨x, y, z⟩ := h.2.2 f g f1 g1
    obtain ⟨r, e1, e2, e3, e4⟩ := Conv.C12_law_partial ⟨hM.same ▸ hM.eps, hM.brk, ne_nil f4, ne_nil g4, hM.same ▸ f2, hM.same ▸ g2,
      x, y, z⟩ hM.quad f3 g3 M.pole
    exact ⟨r, by rw [Expr.run, f1, g1]; exact e1, hM.same ▸ e2, e3, by rw [e4, f4, g4]; rfl⟩
  | .sub a b, h => by
    obtain ⟨f, f1, f2, f3, f4⟩ := C68_expression_partial hM h.1
    obtain ⟨g, g1, g2, g3, g4⟩ := C68_expression_partial hM h.2.1
    have := expr_prob h.1; have := expr_prob h.2.1
    obtain ⟨x, y, z⟩ := h.2.2 f g f1 g1
    obtain ⟨r, e1, e2, e3, e4⟩ := Conv.C12_sub_partial hM.quad (hM.same ▸ hM.eps) hM.brk (ne_nil f4) (ne_nil g4) (hM.same ▸ f2)
      (hM.same ▸ g2) x y z f3 g3 M.pole
    exact ⟨r, by rw [Expr.run, f1, g1]; exact e1, hM.same ▸ e2, e3, by rw [e4, f4, g4]; rfl⟩
  | .mul a b, h => by
    obtain ⟨f, f1, f2, f3, f4⟩ := C68_expression_partial hM h.1
    obtain ⟨g, g1, g2, g3, g4⟩ := C68_expression_partial hM h.2.1
    have := expr_prob h.1; have := expr_prob h.2.1
    obtain ⟨r, e1, e2, e3, e4⟩ := Conv.C13_law_partial ⟨hM.same ▸ hM.eps, ne_nil f4, ne_nil g4, hM.same ▸ f2, hM.same ▸ g2,
      h.2.2.2.2 f g f1 g1, .inl (by rw [f4, g4]; exact ⟨alive h.2.2.1, alive h.2.2.2.1⟩)⟩ hM.quad f3 g3 M.pole
    exact ⟨r, by rw [Expr.run, f1, g1]; exact e1, hM.same ▸ e2, e3, by rw [e4, f4, g4]; rfl⟩
  | .div a b, h => by
    obtain ⟨f, f1, f2, f3, f4⟩ := C68_expression_partial hM h.1
    obtain ⟨g, g1, g2, g3, g4⟩ := C68_expression_partial hM h.2.1
    have := expr_prob h.1; have := expr_prob h.2.1
    obtain ⟨x, y, z⟩ := h.2.2 f g f1 g1
    obtain ⟨r, e1, e2, e3, e4⟩ := Conv.C14_law_partial ⟨⟨hM.same ▸ hM.eps, ne_nil f4, ne_nil g4, hM.same ▸ f2, hM.same ▸ g2,
      z, fun n => not_dirac x 0 n⟩, fun m hm => absurd hm (y m), fun ⟨b, n, hb⟩ => absurd hb (not_dirac x b n)⟩ hM.quad f3 g3
      M.neg0 M.arr M.pole
    exact ⟨r, by rw [Expr.run, f1, g1]; exact e1, hM.same ▸ e2, e3, by rw [e4, f4, g4]; rfl⟩
  | .min a b, h => by
    obtain ⟨f, f1, f2, f3, f4⟩ := C68_expression_partial hM h.1
    obtain ⟨g, g1, g2, g3, g4⟩ := C68_expression_partial hM h.2.1
    have := expr_prob h.1; have := expr_prob h.2.1
    obtain ⟨r, e1, e2, e3, e4⟩ := Conv.C15_min_law_partial ⟨hM.same ▸ hM.eps, ne_nil f4, ne_nil g4, hM.same ▸ f2, hM.same ▸ g2,
      h.2.2 f g f1 g1⟩ hM.quad f3 g3
    exact ⟨r, by rw [Expr.run, f1, g1]; exact e1, hM.same ▸ e2, e3, by rw [e4, f4, g4]; rfl⟩
  | .max a b, h => by
    obtain ⟨f, f1, f2, f3, f4⟩ := C68_expression_partial hM h.1
    obtain ⟨g, g1, g2, g3, g4⟩ := C68_expression_partial hM h.2.1
    have := expr_prob h.1; have := expr_prob h.2.1
    obtain ⟨r, e1, e2, e3, e4⟩ := Conv.C15_max_law_partial ⟨hM.same ▸ hM.eps, ne_nil f4, ne_nil g4, hM.same ▸ f2, hM.same ▸ g2,
      h.2.2 f g f1 g1⟩ hM.quad f3 g3
    exact ⟨r, by rw [Expr.run, f1, g1]; exact e1, hM.same ▸ e2, e3, by rw [e4, f4, g4]; rfl⟩

/-- **C68, total mass**: the result integrates to one. -/
theorem C68_mass_partial {M : Machine} (hM : MachineOK M) {e : Expr} (h : ExprOK M e) :
    ∃ r, e.run M = some r ∧ PF.law r univ = 1 := by
  obtain ⟨r, e1, -, -, e2⟩ := C68_expression_partial hM h
  have := expr_prob h
  exact ⟨r, e1, by rw [e2]; exact measure_univ⟩

/-- **C68, substitution**: expressions with the same law are evaluated to densities with the same law. -/
theorem C68_same_partial {M : Machine} (hM : MachineOK M) {e e' : Expr} (h : ExprOK M e) (h' : ExprOK M e')
    (hl : exprLaw e = exprLaw e') : ∃ r r', e.run M = some r ∧ e'.run M = some r' ∧ PF.law r = PF.law r' := by
  obtain ⟨r, e1, -, -, e2⟩ := C68_expression_partial hM h
  obtain ⟨r', e1', -, -, e2'⟩ := C68_expression_partial hM h'
  exact ⟨r, r', e1, e1', by rw [e2, e2', hl]⟩

end Pacal.Identity
