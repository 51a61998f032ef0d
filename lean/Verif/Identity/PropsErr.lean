import Verif.Identity.LemErr

/-!
# C91: errors of intermediate results

Full statement: the law of the density computed for an expression differs from the law of the expression by no more than the errors
committed at the nodes (interpolation, quadrature, rounding) allow: every operation adds its own error to those of its arguments, and no
operation amplifies them.

Partial: the replaced densities must be nonnegative (an interpolant may be slightly negative), and the cases which are wrong without any
error (C12-C23, C46) are excluded at every node, as in C68.
-/

namespace Pacal.Identity
open MeasureTheory ProbabilityTheory Standard Set

/-- **C91.** With an error of at most `δ e` at every node `e`, the evaluation succeeds, the result is a well-formed density and the
probabilities of all events are exact up to `bound δ e`. -/
theorem C91_errors_partial {M : Machine} {replace : Expr → PF ℝ → PF ℝ} {δ : Expr → ℝ} (hM : MachineOK M)
    (hA : Accurate M replace δ) : ∀ {e : Expr}, NodesOK M replace e → bound δ e < 1 →
      ∃ r, e.runWith M replace = some r ∧ PF.WF M.env.eps r ∧ PF.Dens r ∧ Within (bound δ e) (PF.law r) (exprLaw e)
  | .dist k, h, hb => by
    have := kind_prob h.1 h.2
    obtain ⟨l, e1, w, d, e2⟩ := kind_rep (E := M.env) hM.eps hM.lg h.1 h.2
    obtain ⟨w', d', z⟩ := replace_ok hA (.dist k) w d (within_eq e2) (by rw [zero_add]; exact hb)
    exact ⟨_, by rw [Expr.runWith, e1, Option.map_some], w', d', z.mono (zero_add _).le⟩
  | .discrete t, h, hb => by
    have : IsProbabilityMeasure (exprLaw (.discrete t)) := table_prob h
    obtain ⟨l, e1, w, d, e2⟩ := C25_law_partial hM.eps h.2.2 h.1
    obtain ⟨w', d', z⟩ := replace_ok hA (.discrete t) w d (within_eq (ν := exprLaw (.discrete t)) e2)
      (by rw [zero_add]; exact hb)
    exact ⟨_, by rw [Expr.runWith, e1, Option.map_some], w', d', z.mono (zero_add _).le⟩
  | .step s e, h, hb => by
    obtain ⟨l, e1, w, d, e2⟩ := C91_errors_partial hM hA h.1 (lt_of_le_of_lt (le_add_of_nonneg_right (hA.nonneg _)) hb)
    obtain ⟨hc, hs⟩ := h.2 l e1
    have : IsProbabilityMeasure ((exprLaw e).map (stepFn s)) := nodes_prob (e := .step s e) h
    obtain ⟨r, e3, w', d', e4⟩ := step_sound M hM.eps w d hc s hs
    obtain ⟨w'', d'', z⟩ := replace_ok hA (.step s e) w' d' (e4 ▸ e2.map (measurable_stepFn s)) hb
    exact ⟨_, by rw [Expr.runWith, e1, Option.bind_some, e3, Option.map_some], w'', d'', z⟩
  | .add a b, h, hb => by
    obtain ⟨ba, bb⟩ := two_lt (bound_nonneg hA.nonneg a) (bound_nonneg hA.nonneg b) (hA.nonneg (.add a b)) hb
    obtain ⟨f, f1, f2, f3, f4⟩ := C91_errors_partial hM hA h.1 ba
    obtain ⟨g, g1, g2, g3, g4⟩ := C91_errors_partial hM hA h.2.1 bb
    have := nodes_prob h.1; have := nodes_prob h.2.1
    have := PF.law_finite f3; have := PF.law_finite g3
    have ne := within_ne f4 ba; have ne' := within_ne g4 bb
    obtain ⟨x, y, z⟩ := h.2.2 f g f1 g1
    obtain ⟨r, e1, e2, e3, e4⟩ := Conv.C12_law_partial ⟨hM.same ▸ hM.eps, hM.brk, ne, ne', hM.same ▸ f2, hM.same ▸ g2, x, y, z⟩ hM.quad
      f3 g3 M.pole
    have : IsProbabilityMeasure (opLaw (· + ·) (exprLaw a) (exprLaw b)) := nodes_prob (e := .add a b) h
    obtain ⟨w, d, z⟩ := replace_ok hA (.add a b) (hM.same ▸ e2) e3 (e4 ▸ f4.op g4 (· + ·) (by fun_prop)) hb
    exact ⟨_, by rw [Expr.runWith, f1, g1, Option.bind_some, Option.bind_some, e1, Option.map_some], w, d, z⟩
  | .sub a b, h, hb => by
    obtain ⟨ba, bb⟩ := two_lt (bound_nonneg hA.nonneg a) (bound_nonneg hA.nonneg b) (hA.nonneg (.sub a b)) hb
    obtain ⟨f, f1, f2, f3, f4⟩ := C91_errors_partial hM hA h.1 ba
    obtain ⟨g, g1, g2, g3, g4⟩ := C91_errors_partial hM hA h.2.1 bb
    have := nodes_prob h.1; have := nodes_prob h.2.1
    have := PF.law_finite f3; have := PF.law_finite g3
    have ne := within_ne f4 ba; have ne' := within_ne g4 bb
    obtain ⟨x, y, z⟩ := h.2.2 f g f1 g1
    obtain ⟨r, e1, e2, e3, e4⟩ := Conv.C12_sub_partial hM.quad (hM.same ▸ hM.eps) hM.brk ne ne' (hM.same ▸ f2) (hM.same ▸ g2) x y z
      f3 g3 M.pole
    have : IsProbabilityMeasure (opLaw (· - ·) (exprLaw a) (exprLaw b)) := nodes_prob (e := .sub a b) h
    obtain ⟨w, d, z⟩ := replace_ok hA (.sub a b) (hM.same ▸ e2) e3 (e4 ▸ f4.op g4 (· - ·) (by fun_prop)) hb
    exact ⟨_, by rw [Expr.runWith, f1, g1, Option.bind_some, Option.bind_some, e1, Option.map_some], w, d, z⟩
  | .mul a b, h, hb => by
    obtain ⟨ba, bb⟩ := two_lt (bound_nonneg hA.nonneg a) (bound_nonneg hA.nonneg b) (hA.nonneg (.mul a b)) hb
    obtain ⟨f, f1, f2, f3, f4⟩ := C91_errors_partial hM hA h.1 ba
    obtain ⟨g, g1, g2, g3, g4⟩ := C91_errors_partial hM hA h.2.1 bb
    have := nodes_prob h.1; have := nodes_prob h.2.1
    have := PF.law_finite f3; have := PF.law_finite g3
    have ne := within_ne f4 ba; have ne' := within_ne g4 bb
    obtain ⟨x, y, z⟩ := h.2.2 f g f1 g1
    obtain ⟨r, e1, e2, e3, e4⟩ := Conv.C13_law_partial ⟨hM.same ▸ hM.eps, ne, ne', hM.same ▸ f2, hM.same ▸ g2, z, .inl ⟨x, y⟩⟩ hM.quad
      f3 g3 M.pole
    have : IsProbabilityMeasure (opLaw (· * ·) (exprLaw a) (exprLaw b)) := nodes_prob (e := .mul a b) h
    obtain ⟨w, d, z⟩ := replace_ok hA (.mul a b) (hM.same ▸ e2) e3 (e4 ▸ f4.op g4 (· * ·) (by fun_prop)) hb
    exact ⟨_, by rw [Expr.runWith, f1, g1, Option.bind_some, Option.bind_some, e1, Option.map_some], w, d, z⟩
  | .div a b, h, hb => by
    obtain ⟨ba, bb⟩ := two_lt (bound_nonneg hA.nonneg a) (bound_nonneg hA.nonneg b) (hA.nonneg (.div a b)) hb
    obtain ⟨f, f1, f2, f3, f4⟩ := C91_errors_partial hM hA h.1 ba
    obtain ⟨g, g1, g2, g3, g4⟩ := C91_errors_partial hM hA h.2.1 bb
    have := nodes_prob h.1; have := nodes_prob h.2.1
    have := PF.law_finite f3; have := PF.law_finite g3
    have ne := within_ne f4 ba; have ne' := within_ne g4 bb
    obtain ⟨x, y, z⟩ := h.2.2 f g f1 g1
    obtain ⟨r, e1, e2, e3, e4⟩ := Conv.C14_law_partial ⟨⟨hM.same ▸ hM.eps, ne, ne', hM.same ▸ f2, hM.same ▸ g2, z,
      fun n => not_dirac x 0 n⟩, fun m hm => absurd hm (y m), fun ⟨b, n, hb⟩ => absurd hb (not_dirac x b n)⟩ hM.quad f3 g3
      M.neg0 M.arr M.pole
    have : IsProbabilityMeasure (opLaw (· / ·) (exprLaw a) (exprLaw b)) := nodes_prob (e := .div a b) h
    obtain ⟨w, d, z⟩ := replace_ok hA (.div a b) (hM.same ▸ e2) e3 (e4 ▸ f4.op g4 (· / ·) (by fun_prop)) hb
    exact ⟨_, by rw [Expr.runWith, f1, g1, Option.bind_some, Option.bind_some, e1, Option.map_some], w, d, z⟩
  | .min a b, h, hb => by
    obtain ⟨ba, bb⟩ := two_lt (bound_nonneg hA.nonneg a) (bound_nonneg hA.nonneg b) (hA.nonneg (.min a b)) hb
    obtain ⟨f, f1, f2, f3, f4⟩ := C91_errors_partial hM hA h.1 ba
    obtain ⟨g, g1, g2, g3, g4⟩ := C91_errors_partial hM hA h.2.1 bb
    have := nodes_prob h.1; have := nodes_prob h.2.1
    have := PF.law_finite f3; have := PF.law_finite g3
    have ne := within_ne f4 ba; have ne' := within_ne g4 bb
    obtain ⟨r, e1, e2, e3, e4⟩ := Conv.C15_min_law_partial ⟨hM.same ▸ hM.eps, ne, ne', hM.same ▸ f2, hM.same ▸ g2,
      h.2.2 f g f1 g1⟩ hM.quad f3 g3
    have : IsProbabilityMeasure (opLaw Min.min (exprLaw a) (exprLaw b)) := nodes_prob (e := .min a b) h
    obtain ⟨w, d, z⟩ := replace_ok hA (.min a b) (hM.same ▸ e2) e3 (e4 ▸ f4.op g4 Min.min (by fun_prop)) hb
    exact ⟨_, by rw [Expr.runWith, f1, g1, Option.bind_some, Option.bind_some, e1, Option.map_some], w, d, z⟩
  | .max a b, h, hb => by
    obtain ⟨ba, bb⟩ := two_lt (bound_nonneg hA.nonneg a) (bound_nonneg hA.nonneg b) (hA.nonneg (.max a b)) hb
    obtain ⟨f, f1, f2, f3, f4⟩ := C91_errors_partial hM hA h.1 ba
    obtain ⟨g, g1, g2, g3, g4⟩ := C91_errors_partial hM hA h.2.1 bb
    have := nodes_prob h.1; have := nodes_prob h.2.1
    have := PF.law_finite f3; have := PF.law_finite g3
    have ne := within_ne f4 ba; have ne' := within_ne g4 bb
    obtain ⟨r, e1, e2, e3, e4⟩ := Conv.C15_max_law_partial ⟨hM.same ▸ hM.eps, ne, ne', hM.same ▸ f2, hM.same ▸ g2,
      h.2.2 f g f1 g1⟩ hM.quad f3 g3
    have : IsProbabilityMeasure (opLaw Max.max (exprLaw a) (exprLaw b)) := nodes_prob (e := .max a b) h
    obtain ⟨w, d, z⟩ := replace_ok hA (.max a b) (hM.same ▸ e2) e3 (e4 ▸ f4.op g4 Max.max (by fun_prop)) hb
    exact ⟨_, by rw [Expr.runWith, f1, g1, Option.bind_some, Option.bind_some, e1, Option.map_some], w, d, z⟩

end Pacal.Identity
