import Verif.Identity.LemTotal

/-!
# C95: errors of quadrature and interpolation in the final result

Full statement: the probabilities computed for an expression of independent random variables differ from the true ones by no more
than the errors of the integrals and of the interpolation at its nodes, accumulated as in C91.

Partial: the stored interpolants must be nonnegative; the probabilities of the atoms of products, minima and
maxima are exact (in general these carry errors of integrals as well); the cases excluded in C12-C23 and C46 are excluded here.
-/

namespace Pacal.Identity
open MeasureTheory ProbabilityTheory Standard Set Conv

variable {M : Machine} {replace : Expr → PF ℝ → PF ℝ} {δ : Expr → ℝ}

/-- **C95.** If the integrals and interpolants at every node `e` have errors of total area at most `δ e` (`Budget`), the evaluation
succeeds and the probabilities of all events are exact up to `bound δ e`. -/
theorem C95_total_partial (hM : ArithmeticOK M) (hδ : ∀ e, 0 ≤ δ e) : ∀ {e : Expr}, NodesOK M replace e → Budget M replace δ e →
    bound δ e < 1 → ∃ r, e.runWith M replace = some r ∧ PF.WF M.env.eps r ∧ PF.Dens r ∧ Within (bound δ e) (PF.law r) (exprLaw e)
  | .dist k, h, hB, hb => by
    obtain ⟨l, e1, w, d, e2⟩ := kind_rep (E := M.env) hM.eps hM.lg h.1 h.2
    obtain ⟨w', d', z⟩ := keep_ok (M := M) hB (hδ (.dist k)) w d (within_eq e2)
    exact ⟨_, by rw [Expr.runWith, e1, Option.map_some], w', d', z.mono (zero_add _).le⟩
  | .discrete t, h, hB, hb => by
    obtain ⟨l, e1, w, d, e2⟩ := C25_law_partial hM.eps h.2.2 h.1
    obtain ⟨w', d', z⟩ := keep_ok (M := M) hB (hδ (.discrete t)) w d (within_eq (ν := exprLaw (.discrete t)) e2)
    exact ⟨_, by rw [Expr.runWith, e1, Option.map_some], w', d', z.mono (zero_add _).le⟩
  | .step s e, h, hB, hb => by
    obtain ⟨l, e1, w, d, e2⟩ := C95_total_partial hM hδ h.1 hB.1 (lt_of_le_of_lt (le_add_of_nonneg_right (hδ _)) hb)
    obtain ⟨hc, hs⟩ := h.2 l e1
    obtain ⟨r, e3, w', d', e4⟩ := step_sound M hM.eps w d hc s hs
    obtain ⟨w'', d'', z⟩ := keep_ok (M := M) hB.2 (hδ (.step s e)) w' d' (e4 ▸ e2.map (measurable_stepFn s))
    exact ⟨_, by rw [Expr.runWith, e1, Option.bind_some, e3, Option.map_some], w'', d'', z⟩
  | .add a b, h, hB, hb => by
    obtain ⟨ba, bb⟩ := two_lt (bound_nonneg hδ a) (bound_nonneg hδ b) (hδ (.add a b)) hb
    obtain ⟨f, f1, f2, f3, f4⟩ := C95_total_partial hM hδ h.1 hB.1 ba
    obtain ⟨g, g1, g2, g3, g4⟩ := C95_total_partial hM hδ h.2.1 hB.2.1 bb
    have := nodes_prob h.1; have := nodes_prob h.2.1
    have := PF.law_finite f3; have := PF.law_finite g3
    have ne := within_ne f4 ba; have ne' := within_ne g4 bb
    rw [← hM.same] at f2 g2
    have he : 0 ≤ M.par.eps := hM.same ▸ hM.eps
    obtain ⟨x, y, z⟩ := h.2.2 f g f1 g1
    have ha : SumArgs M.par f g := ⟨he, hM.brk, ne, ne', f2, g2, x, y, z⟩
    have h0 : SumArgs (exactPar M.par) f g := ⟨he, hM.brk, ne, ne', f2, g2, x, y, z⟩
    obtain ⟨ε, η, hq, hst⟩ := hB.2.2 f g f1 g1
    obtain ⟨l, e1, e2, e3, e4⟩ := Conv.C12_law_partial h0 (exactPar_exact M.par) f3 g3 M.pole
    have hn := conv_near ha (fun x => (hst.nonneg x).1) f3 g3 hq M.pole
    rw [e1] at hn
    obtain ⟨r, r1, r2, r3, r4⟩ := stored_ok hst hn e2 e3 (e4 ▸ f4.op g4 (· + ·) (by fun_prop))
    exact ⟨r, by rw [Expr.runWith, f1, g1, Option.bind_some, Option.bind_some, r1], hM.same ▸ r2, r3, r4⟩
  | .sub a b, h, hB, hb => by
    obtain ⟨ba, bb⟩ := two_lt (bound_nonneg hδ a) (bound_nonneg hδ b) (hδ (.sub a b)) hb
    obtain ⟨f, f1, f2, f3, f4⟩ := C95_total_partial hM hδ h.1 hB.1 ba
    obtain ⟨g, g1, g2, g3, g4⟩ := C95_total_partial hM hδ h.2.1 hB.2.1 bb
    have := nodes_prob h.1; have := nodes_prob h.2.1
    have := PF.law_finite f3; have := PF.law_finite g3
    have ne := within_ne f4 ba; have ne' := within_ne g4 bb
    rw [← hM.same] at f2 g2
    have he : 0 ≤ M.par.eps := hM.same ▸ hM.eps
    obtain ⟨x, y, z⟩ := h.2.2 f g f1 g1
    obtain ⟨g', k1, k2, k3⟩ := reflect_perm he g2
    obtain ⟨g'', k4, -, k6, -⟩ := C18_law_partial he (scale := -1) (by norm_num) 0 (by simpa using g2) g3
    rw [shiftedScaled, if_pos (by norm_num), k1] at k4
    obtain rfl := Option.some.inj k4
    have ha : SumArgs M.par f g' := ⟨he, hM.brk, ne, by rintro rfl; exact ne' (by simpa using k2), f2, k3, x, reflect_noHole k2 y, by
      intro a ha b hb a' ha' b' hb' hne
      have := z a ha _ (reflect_ends k2 hb) a' ha' _ (reflect_ends k2 hb') (by simpa using hne)
      simpa using this⟩
    obtain ⟨ε, η, hq, hst⟩ := hB.2.2 f g _ f1 g1 k1
    obtain ⟨l, e1, e2, e3, e4⟩ := Conv.C12_sub_partial (P := exactPar M.par) (exactPar_exact M.par) he hM.brk ne ne' f2 g2 x y z f3 g3 M.pole
    have hn := conv_near ha (fun x => (hst.nonneg x).1) f3 k6 hq M.pole
    have u1 : Conv.sub (exactPar M.par) M.pole f g = conv (exactPar M.par) M.pole f g' := by
      rw [Conv.sub, show (exactPar M.par).eps = M.par.eps from rfl, k1, Option.bind_some]
    have u2 : Conv.sub M.par M.pole f g = conv M.par M.pole f g' := by rw [Conv.sub, k1, Option.bind_some]
    rw [← u1, ← u2] at hn
    rw [e1] at hn
    obtain ⟨r, r1, r2, r3, r4⟩ := stored_ok hst hn e2 e3 (e4 ▸ f4.op g4 (· - ·) (by fun_prop))
    exact ⟨r, by rw [Expr.runWith, f1, g1, Option.bind_some, Option.bind_some, r1], hM.same ▸ r2, r3, r4⟩
  | .mul a b, h, hB, hb => by
    obtain ⟨ba, bb⟩ := two_lt (bound_nonneg hδ a) (bound_nonneg hδ b) (hδ (.mul a b)) hb
    obtain ⟨f, f1, f2, f3, f4⟩ := C95_total_partial hM hδ h.1 hB.1 ba
    obtain ⟨g, g1, g2, g3, g4⟩ := C95_total_partial hM hδ h.2.1 hB.2.1 bb
    have := nodes_prob h.1; have := nodes_prob h.2.1
    have := PF.law_finite f3; have := PF.law_finite g3
    have ne := within_ne f4 ba; have ne' := within_ne g4 bb
    rw [← hM.same] at f2 g2
    have he : 0 ≤ M.par.eps := hM.same ▸ hM.eps
    obtain ⟨x, y, z⟩ := h.2.2 f g f1 g1
    have ha : ProdArgs M.par f g := ⟨he, ne, ne', f2, g2, z, .inl ⟨x, y⟩⟩
    have h0 : ProdArgs (exactPar M.par) f g := ⟨he, ne, ne', f2, g2, z, .inl ⟨x, y⟩⟩
    obtain ⟨hz, ε, η, hq, hst⟩ := hB.2.2 f g f1 g1
    obtain ⟨l, e1, e2, e3, e4⟩ := Conv.C13_law_partial h0 (exactPar_exact M.par) f3 g3 M.pole
    have hn := convprod_near_atoms ha (fun x => (hst.nonneg x).1) f3 g3 hz hq M.pole
    rw [e1] at hn
    obtain ⟨r, r1, r2, r3, r4⟩ := stored_ok hst hn e2 e3 (e4 ▸ f4.op g4 (· * ·) (by fun_prop))
    exact ⟨r, by rw [Expr.runWith, f1, g1, Option.bind_some, Option.bind_some, r1], hM.same ▸ r2, r3, r4⟩
  | .div a b, h, hB, hb => by
    obtain ⟨ba, bb⟩ := two_lt (bound_nonneg hδ a) (bound_nonneg hδ b) (hδ (.div a b)) hb
    obtain ⟨f, f1, f2, f3, f4⟩ := C95_total_partial hM hδ h.1 hB.1 ba
    obtain ⟨g, g1, g2, g3, g4⟩ := C95_total_partial hM hδ h.2.1 hB.2.1 bb
    have := nodes_prob h.1; have := nodes_prob h.2.1
    have := PF.law_finite f3; have := PF.law_finite g3
    have ne := within_ne f4 ba; have ne' := within_ne g4 bb
    rw [← hM.same] at f2 g2
    have he : 0 ≤ M.par.eps := hM.same ▸ hM.eps
    obtain ⟨x, y, z⟩ := h.2.2 f g f1 g1
    have ha : DivArgs M.par f g := ⟨⟨he, ne, ne', f2, g2, z,
      fun n => not_dirac x 0 n⟩, fun m hm => absurd hm (y m), fun ⟨b, n, hb⟩ => absurd hb (not_dirac x b n)⟩
    have h0 : DivArgs (exactPar M.par) f g := ⟨⟨he, ne, ne', f2, g2, z,
      fun n => not_dirac x 0 n⟩, fun m hm => absurd hm (y m), fun ⟨b, n, hb⟩ => absurd hb (not_dirac x b n)⟩
    obtain ⟨ε, η, hq, hst⟩ := hB.2.2 f g f1 g1
    obtain ⟨l, e1, e2, e3, e4⟩ := Conv.C14_law_partial h0 (exactPar_exact M.par) f3 g3 M.neg0 M.arr M.pole
    have hn := convdiv_near ha (fun x => (hst.nonneg x).1) f3 g3 M.neg0 M.arr hq M.pole
    rw [e1] at hn
    obtain ⟨r, r1, r2, r3, r4⟩ := stored_ok hst hn e2 e3 (e4 ▸ f4.op g4 (· / ·) (by fun_prop))
    exact ⟨r, by rw [Expr.runWith, f1, g1, Option.bind_some, Option.bind_some, r1], hM.same ▸ r2, r3, r4⟩
  | .min a b, h, hB, hb => by
    obtain ⟨ba, bb⟩ := two_lt (bound_nonneg hδ a) (bound_nonneg hδ b) (hδ (.min a b)) hb
    obtain ⟨f, f1, f2, f3, f4⟩ := C95_total_partial hM hδ h.1 hB.1 ba
    obtain ⟨g, g1, g2, g3, g4⟩ := C95_total_partial hM hδ h.2.1 hB.2.1 bb
    have := nodes_prob h.1; have := nodes_prob h.2.1
    have := PF.law_finite f3; have := PF.law_finite g3
    have ne := within_ne f4 ba; have ne' := within_ne g4 bb
    rw [← hM.same] at f2 g2
    have he : 0 ≤ M.par.eps := hM.same ▸ hM.eps
    have ha : MMArgs M.par f g := ⟨he, ne, ne', f2, g2, h.2.2 f g f1 g1⟩
    have h0 : MMArgs (exactPar M.par) f g := ⟨he, ne, ne', f2, g2, h.2.2 f g f1 g1⟩
    obtain ⟨ht, ε, η, hq, hst⟩ := hB.2.2 f g f1 g1
    obtain ⟨l, e1, e2, e3, e4⟩ := Conv.C15_min_law_partial h0 (exactPar_exact M.par) f3 g3
    have hn := min_near ha (fun x => (hst.nonneg x).1) f3 g3 ht hq
    rw [e1] at hn
    obtain ⟨r, r1, r2, r3, r4⟩ := stored_ok hst hn e2 e3 (e4 ▸ f4.op g4 Min.min (by fun_prop))
    exact ⟨r, by rw [Expr.runWith, f1, g1, Option.bind_some, Option.bind_some, r1], hM.same ▸ r2, r3, r4⟩
  | .max a b, h, hB, hb => by
    obtain ⟨ba, bb⟩ := two_lt (bound_nonneg hδ a) (bound_nonneg hδ b) (hδ (.max a b)) hb
    obtain ⟨f, f1, f2, f3, f4⟩ := C95_total_partial hM hδ h.1 hB.1 ba
    obtain ⟨g, g1, g2, g3, g4⟩ := C95_total_partial hM hδ h.2.1 hB.2.1 bb
    have := nodes_prob h.1; have := nodes_prob h.2.1
    have := PF.law_finite f3; have := PF.law_finite g3
    have ne := within_ne f4 ba; have ne' := within_ne g4 bb
    rw [← hM.same] at f2 g2
    have he : 0 ≤ M.par.eps := hM.same ▸ hM.eps
    have ha : MMArgs M.par f g := ⟨he, ne, ne', f2, g2, h.2.2 f g f1 g1⟩
    have h0 : MMArgs (exactPar M.par) f g := ⟨he, ne, ne', f2, g2, h.2.2 f g f1 g1⟩
    obtain ⟨ht, ε, η, hq, hst⟩ := hB.2.2 f g f1 g1
    obtain ⟨l, e1, e2, e3, e4⟩ := Conv.C15_max_law_partial h0 (exactPar_exact M.par) f3 g3
    have hn := max_near ha (fun x => (hst.nonneg x).1) f3 g3 ht hq
    rw [e1] at hn
    obtain ⟨r, r1, r2, r3, r4⟩ := stored_ok hst hn e2 e3 (e4 ▸ f4.op g4 Max.max (by fun_prop))
    exact ⟨r, by rw [Expr.runWith, f1, g1, Option.bind_some, Option.bind_some, r1], hM.same ▸ r2, r3, r4⟩

end Pacal.Identity
