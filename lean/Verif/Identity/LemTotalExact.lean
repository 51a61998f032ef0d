import Verif.Identity.PropsTotal
import Verif.Identity.LemErrExact

/-!
Lemmas for C95: with exact comparisons the conditions of `NodesOK` hold.
-/

namespace Pacal.Identity
open MeasureTheory ProbabilityTheory Standard Set Conv

variable {M : Machine} {replace : Expr → PF ℝ → PF ℝ} {δ : Expr → ℝ}

/-- the same machine with exact integrals -/
noncomputable def Machine.exact (M : Machine) : Machine := { M with par := exactPar M.par }

theorem ArithmeticOK.exact (h : ArithmeticOK M) : MachineOK M.exact := ⟨h.eps, h.same, h.brk, h.lg, exactPar_exact M.par⟩

theorem total_facts (hM : ArithmeticOK M) (hδ : ∀ e, 0 ≤ δ e) {e : Expr} (h : NodesOK M replace e) (hB : Budget M replace δ e)
    (hb : bound δ e < 1) {r : PF ℝ} (hr : e.runWith M replace = some r) :
    PF.WF M.env.eps r ∧ PF.Dens r ∧ Within (bound δ e) (PF.law r) (exprLaw e) ∧ r ≠ [] := by
  obtain ⟨r', e1, w, d, l⟩ := C95_total_partial hM hδ h hB hb
  obtain rfl : r' = r := Option.some.inj (e1.symm.trans hr)
  have := nodes_prob h
  exact ⟨w, d, l, within_ne l hb⟩

/-- a table is not changed -/
theorem table_total (hM : ArithmeticOK M) {t : List (ℝ × ℝ)} (h : TableOK M.env.eps t) (hB : Budget M replace δ (.discrete t)) {r : PF ℝ}
    (hr : (Expr.discrete t).runWith M replace = some r) : (Expr.discrete t).run M.exact = some r := by
  obtain ⟨h1, w⟩ := discretePF_eq hM.eps h.2.2
  rw [Expr.runWith, h1, Option.map_some, hB] at hr
  rw [Expr.run, ← hr]
  exact h1

theorem notZero_total (hM : ArithmeticOK M) (hδ : ∀ e, 0 ≤ δ e) {e : Expr} (h : NodesOK M replace e) (hB : Budget M replace δ e)
    (hb : bound δ e < 1) (hn : NotZero e) {r : PF ℝ} (hr : e.runWith M replace = some r) (hs : Shape M.neg0 e r) : PF.law r {0}ᶜ ≠ 0 := by
  have key : Cont e → PF.law r {0}ᶜ ≠ 0 := fun hc => by
    have := nodes_prob h
    exact within_alive (total_facts hM hδ h hB hb hr).2.2.1 hb (hs.cont hc)
  cases e with
  | discrete t =>
    have h' : ExprOK M.exact (.discrete t) := h
    have := expr_prob h'
    rw [(run_facts hM.exact h' (table_total hM h hB hr)).2.2.1]
    exact alive (table_notZero h hn)
  | _ => exact key hn

theorem zeroFree_total (hM : ArithmeticOK M) {e : Expr} (h : NodesOK M replace e) (hB : Budget M replace δ e) (hz : ZeroFree e) {r : PF ℝ}
    (hr : e.runWith M replace = some r) (hs : Shape M.neg0 e r) (m : ℝ) : Seg.dirac 0 m ∉ r := by
  cases e with
  | discrete t => exact zeroFree_atoms (e := .discrete t) hM.exact h hz (table_total hM h hB hr) hs m
  | _ => exact not_dirac (hs.cont hz) 0 m

theorem stored_redrawn {n d : ℝ} {ε η : ℝ → ℝ} {o : Option (PF ℝ)} {store : PF ℝ → PF ℝ} (h : Stored n ε η d o store) {r : PF ℝ} (hr : o = some r) :
    List.Forall₂ Redrawn r (store r) := (h.near r hr).imp fun _ _ => near_redrawn

theorem defined_total (hM : ArithmeticOK M) (h0 : M.env.eps = 0) (h1_ : M.par.brkEps = 0) (hδ : ∀ e, 0 ≤ δ e) : ∀ {e : Expr}, Defined M.neg0 e → Budget M replace δ e → bound δ e < 1 →
    NodesOK M replace e ∧ ∀ r, e.runWith M replace = some r → Shape M.neg0 e r
  | .dist k, ⟨hv, hx⟩, hB, _ => by
    refine ⟨⟨hv, hx⟩, fun r' hr' => ?_⟩
    obtain ⟨r, hr, rfl⟩ := Option.map_eq_some_iff.1 hr'
    rw [hB]
    obtain ⟨r', e1, w, -⟩ := kind_rep (E := M.env) hM.eps hM.lg hv hx
    obtain rfl : r' = r := Option.some.inj (e1.symm.trans hr)
    exact .of_tidy (kind_tidy hv hr w) fun hp => pos_dist hM.exact hv hx hp hr
  | .discrete t, h, hB, _ => by
    have h' : TableOK M.env.eps t := h0 ▸ h
    exact ⟨h', fun r hr => table_shape hM.eps h' (table_total hM h' hB hr)⟩
  | .step s e, ⟨he, hc, hs⟩, hB, hb => by
    have ba : bound δ e < 1 := lt_of_le_of_lt (le_add_of_nonneg_right (hδ _)) hb
    obtain ⟨h1, h2⟩ := defined_total hM h0 h1_ hδ he hB.1 ba
    have hp := fun l hl => (h2 l hl).pos (cont_plain hc)
    refine ⟨⟨h1, fun l hl => ⟨(h2 l hl).cont hc, stepOK_mono (hp l hl) hs⟩⟩, fun r' hr' => ?_⟩
    obtain ⟨r, hr, rfl⟩ := Option.map_eq_some_iff.1 hr'
    rw [hB.2]
    obtain ⟨l, hl, hr⟩ := Option.bind_eq_some_iff.1 hr
    obtain ⟨w, d, -, ne⟩ := total_facts hM hδ h1 hB.1 ba hl
    have c := (h2 l hl).cont hc
    obtain ⟨c', p', t'⟩ := step_shape M hM.eps w d c s (stepOK_mono (hp l hl) hs) hr
    refine ⟨fun _ => c', fun _ h => p' (stepNonneg_mono (hp l hl) h), fun h => ?_⟩
    have := t' (stepGapless_mono (hp l hl) (fun g => ⟨ne, c, ((h2 l hl).hole g).1, ((h2 l hl).hole g).2⟩) h)
    exact ⟨this.hole, this.holeRight⟩
  | .add x y, ⟨ha, hb', ga, gb⟩, hB, hb => by
    obtain ⟨ba, bb⟩ := two_lt (bound_nonneg hδ x) (bound_nonneg hδ y) (hδ (.add x y)) hb
    obtain ⟨a1, a2⟩ := defined_total hM h0 h1_ hδ ha hB.1 ba
    obtain ⟨b1, b2⟩ := defined_total hM h0 h1_ hδ hb' hB.2.1 bb
    have hok : NodesOK M replace (.add x y) := ⟨a1, b1, fun f g hf hg => ⟨((a2 f hf).hole ga).1, ((b2 g hg).hole gb).1,
      apart0 (by rw [hM.same, h0, h1_, max_self]) f g⟩⟩
    refine ⟨hok, fun r' hr' => ?_⟩
    obtain ⟨w', -, -, ne'⟩ := total_facts hM hδ hok hB hb hr'
    obtain ⟨r, hr, rfl⟩ := Option.map_eq_some_iff.1 hr'
    obtain ⟨f, g, hf, hg, hr⟩ := run_two hr
    obtain ⟨ε, η, hq, hst⟩ := hB.2.2 f g hf hg
    have hred := stored_redrawn hst hr
    refine redrawn_shape hred ?_
    have w := redrawn_wf (redrawn_symm hred) w'
    have ne := redrawn_ne (redrawn_symm hred) ne'
    obtain ⟨f1, -, f3, f2⟩ := total_facts hM hδ a1 hB.1 ba hf
    obtain ⟨g1, -, g3, g2⟩ := total_facts hM hδ b1 hB.2.1 bb hg
    obtain ⟨u, v, z⟩ := hok.2.2 f g hf hg
    have args : SumArgs M.par f g := ⟨hM.same ▸ hM.eps, hM.brk, f2, g2, hM.same ▸ f1, hM.same ▸ g1, u, v, z⟩
    have key : Cont x ∨ Cont y → Tidy r := fun hc => conv_tidy args (hc.imp (a2 f hf).cont (b2 g hg).cont) hr (hM.same ▸ w) ne
    exact ⟨fun hc => (key hc).cont, fun hc h => conv_pos args (Or.imp (a2 f hf).cont (b2 g hg).cont hc)
      ((a2 f hf).pos (gapless_plain ha ga) h.1) ((b2 g hg).pos (gapless_plain hb' gb) h.2) hr,
      fun hc => ⟨(key hc).hole, (key hc).holeRight⟩⟩
  | .sub x y, ⟨ha, hb', ga, gb⟩, hB, hb => by
    obtain ⟨ba, bb⟩ := two_lt (bound_nonneg hδ x) (bound_nonneg hδ y) (hδ (.sub x y)) hb
    obtain ⟨a1, a2⟩ := defined_total hM h0 h1_ hδ ha hB.1 ba
    obtain ⟨b1, b2⟩ := defined_total hM h0 h1_ hδ hb' hB.2.1 bb
    have hok : NodesOK M replace (.sub x y) := ⟨a1, b1, fun f g hf hg => ⟨((a2 f hf).hole ga).1, ((b2 g hg).hole gb).2,
      apart0 (by rw [hM.same, h0, h1_, max_self]) f g⟩⟩
    refine ⟨hok, fun r' hr' => ?_⟩
    obtain ⟨w', -, -, ne'⟩ := total_facts hM hδ hok hB hb hr'
    obtain ⟨r, hr, rfl⟩ := Option.map_eq_some_iff.1 hr'
    obtain ⟨f, g, hf, hg, hr⟩ := run_two hr
    obtain ⟨g', hg', -⟩ := Option.bind_eq_some_iff.1 hr
    obtain ⟨ε, η, hq, hst⟩ := hB.2.2 f g g' hf hg hg'
    have hred := stored_redrawn hst hr
    refine redrawn_shape hred ?_
    have w := redrawn_wf (redrawn_symm hred) w'
    have ne := redrawn_ne (redrawn_symm hred) ne'
    obtain ⟨f1, -, f3, f2⟩ := total_facts hM hδ a1 hB.1 ba hf
    obtain ⟨g1, -, g3, g2⟩ := total_facts hM hδ b1 hB.2.1 bb hg
    obtain ⟨u, v, z⟩ := hok.2.2 f g hf hg
    have key : Cont x ∨ Cont y → Tidy r := fun hc => sub_tidy (hM.same ▸ hM.eps) hM.brk (hc.imp (a2 f hf).cont (b2 g hg).cont) f2 g2
      u v (hM.same ▸ f1) (hM.same ▸ g1) z hr (hM.same ▸ w) ne
    exact ⟨fun hc => (key hc).cont, fun _ h => h.elim, fun hc => ⟨(key hc).hole, (key hc).holeRight⟩⟩
  | .mul x y, ⟨ha, hb', na, nb⟩, hB, hb => by
    obtain ⟨ba, bb⟩ := two_lt (bound_nonneg hδ x) (bound_nonneg hδ y) (hδ (.mul x y)) hb
    obtain ⟨a1, a2⟩ := defined_total hM h0 h1_ hδ ha hB.1 ba
    obtain ⟨b1, b2⟩ := defined_total hM h0 h1_ hδ hb' hB.2.1 bb
    have hok : NodesOK M replace (.mul x y) := ⟨a1, b1, fun f g hf hg =>
      ⟨notZero_total hM hδ a1 hB.1 ba na hf (a2 f hf), notZero_total hM hδ b1 hB.2.1 bb nb hg (b2 g hg),
      apartMul0 (by rw [hM.same, h0]) f g⟩⟩
    refine ⟨hok, fun r' hr' => ?_⟩
    obtain ⟨w', -, -, ne'⟩ := total_facts hM hδ hok hB hb hr'
    obtain ⟨r, hr, rfl⟩ := Option.map_eq_some_iff.1 hr'
    obtain ⟨f, g, hf, hg, hr⟩ := run_two hr
    obtain ⟨hz, ε, η, hq, hst⟩ := hB.2.2 f g hf hg
    have hred := stored_redrawn hst hr
    refine redrawn_shape hred ?_
    have w := redrawn_wf (redrawn_symm hred) w'
    have ne := redrawn_ne (redrawn_symm hred) ne'
    obtain ⟨f1, -, f3, f2⟩ := total_facts hM hδ a1 hB.1 ba hf
    obtain ⟨g1, -, g3, g2⟩ := total_facts hM hδ b1 hB.2.1 bb hg
    obtain ⟨u, v, z⟩ := hok.2.2 f g hf hg
    have args : ProdArgs M.par f g := ⟨hM.same ▸ hM.eps, f2, g2, hM.same ▸ f1, hM.same ▸ g1, z, .inl ⟨u, v⟩⟩
    have key : Cont x ∧ Cont y → Tidy r := fun hc => prod_tidy args ((a2 f hf).cont hc.1) ((b2 g hg).cont hc.2) hr (hM.same ▸ w) ne
    exact ⟨fun hc => (key hc).cont, fun hc h => prod_pos args ((a2 f hf).cont hc.1) ((b2 g hg).cont hc.2)
      ((a2 f hf).pos (cont_plain hc.1) h.1) ((b2 g hg).pos (cont_plain hc.2) h.2) hr, fun hc => ⟨(key hc).hole, (key hc).holeRight⟩⟩
  | .div x y, ⟨ha, hb', za, cb⟩, hB, hb => by
    obtain ⟨ba, bb⟩ := two_lt (bound_nonneg hδ x) (bound_nonneg hδ y) (hδ (.div x y)) hb
    obtain ⟨a1, a2⟩ := defined_total hM h0 h1_ hδ ha hB.1 ba
    obtain ⟨b1, b2⟩ := defined_total hM h0 h1_ hδ hb' hB.2.1 bb
    have hok : NodesOK M replace (.div x y) := ⟨a1, b1, fun f g hf hg => ⟨(b2 g hg).cont cb,
      zeroFree_total hM a1 hB.1 za hf (a2 f hf), apartDiv0 (by rw [hM.same, h0]) f g⟩⟩
    refine ⟨hok, fun r' hr' => ?_⟩
    obtain ⟨w', -, -, ne'⟩ := total_facts hM hδ hok hB hb hr'
    obtain ⟨r, hr, rfl⟩ := Option.map_eq_some_iff.1 hr'
    obtain ⟨f, g, hf, hg, hr⟩ := run_two hr
    obtain ⟨ε, η, hq, hst⟩ := hB.2.2 f g hf hg
    have hred := stored_redrawn hst hr
    refine redrawn_shape hred ?_
    have w := redrawn_wf (redrawn_symm hred) w'
    have ne := redrawn_ne (redrawn_symm hred) ne'
    obtain ⟨f1, -, f3, f2⟩ := total_facts hM hδ a1 hB.1 ba hf
    obtain ⟨g1, -, g3, g2⟩ := total_facts hM hδ b1 hB.2.1 bb hg
    have args : DivBase M.par f g :=
      ⟨hM.same ▸ hM.eps, f2, g2, hM.same ▸ f1, hM.same ▸ g1, (hok.2.2 f g hf hg).2.2, fun n => not_dirac ((b2 g hg).cont cb) 0 n⟩
    have := div_tidy args (.inr ((b2 g hg).cont cb)) hr (hM.same ▸ w) ne
    exact .of_tidy this fun h => div_pos' args (.inr ((b2 g hg).cont cb)) ((a2 f hf).pos (zeroFree_plain za) h.2.1)
      ((b2 g hg).pos (cont_plain cb) h.2.2) (h.1 ▸ hr)
  | .min x y, ⟨ha, hb'⟩, hB, hb => by
    obtain ⟨ba, bb⟩ := two_lt (bound_nonneg hδ x) (bound_nonneg hδ y) (hδ (.min x y)) hb
    obtain ⟨a1, a2⟩ := defined_total hM h0 h1_ hδ ha hB.1 ba
    obtain ⟨b1, b2⟩ := defined_total hM h0 h1_ hδ hb' hB.2.1 bb
    have hok : NodesOK M replace (.min x y) := ⟨a1, b1, fun f g _ _ => atomsApart0 (by rw [hM.same, h0]) f g⟩
    refine ⟨hok, fun r' hr' => ?_⟩
    obtain ⟨w', -, -, ne'⟩ := total_facts hM hδ hok hB hb hr'
    obtain ⟨r, hr, rfl⟩ := Option.map_eq_some_iff.1 hr'
    obtain ⟨f, g, hf, hg, hr⟩ := run_two hr
    obtain ⟨ht, ε, η, hq, hst⟩ := hB.2.2 f g hf hg
    have hred := stored_redrawn hst hr
    refine redrawn_shape hred ?_
    have ne := redrawn_ne (redrawn_symm hred) ne'
    obtain ⟨f1, f0, f3, f2⟩ := total_facts hM hδ a1 hB.1 ba hf
    obtain ⟨g1, g0, g3, g2⟩ := total_facts hM hδ b1 hB.2.1 bb hg
    have args : MMArgs (exactPar M.par) f g := ⟨hM.same ▸ hM.eps, f2, g2, hM.same ▸ f1, hM.same ▸ g1, hok.2.2 f g hf hg⟩
    have args' : MMArgs M.par f g := ⟨hM.same ▸ hM.eps, f2, g2, hM.same ▸ f1, hM.same ▸ g1, hok.2.2 f g hf hg⟩
    obtain ⟨l, hl, w, -⟩ := Conv.C15_min_law_partial args (exactPar_exact M.par) f0 g0
    have hn := min_near args' (fun x => (hst.nonneg x).1) f0 g0 ht hq
    rw [hl, hr] at hn
    have hn' : List.Forall₂ Redrawn l r := List.Forall₂.imp (fun _ _ => near_redrawn) hn
    refine redrawn_shape hn' ?_
    have ne := redrawn_ne (redrawn_symm hn') ne
    have key : Cont x ∧ Cont y → Tidy l := fun hc =>
      mm_tidy (opMin (exactPar_exact M.par)) args ((a2 f hf).cont hc.1) ((b2 g hg).cont hc.2) hl w ne
    exact ⟨fun hc => (key hc).cont, fun hc h => mm_pos (opMin (exactPar_exact M.par)) args ((a2 f hf).cont hc.1) ((b2 g hg).cont hc.2) hl fun a ha b hb =>
      le_min (breaks_pos f1 ((a2 f hf).pos (cont_plain hc.1) h.1) ha) (breaks_pos g1 ((b2 g hg).pos (cont_plain hc.2) h.2) hb),
      fun hc => ⟨(key hc).hole, (key hc).holeRight⟩⟩
  | .max x y, ⟨ha, hb'⟩, hB, hb => by
    obtain ⟨ba, bb⟩ := two_lt (bound_nonneg hδ x) (bound_nonneg hδ y) (hδ (.max x y)) hb
    obtain ⟨a1, a2⟩ := defined_total hM h0 h1_ hδ ha hB.1 ba
    obtain ⟨b1, b2⟩ := defined_total hM h0 h1_ hδ hb' hB.2.1 bb
    have hok : NodesOK M replace (.max x y) := ⟨a1, b1, fun f g _ _ => atomsApart0 (by rw [hM.same, h0]) f g⟩
    refine ⟨hok, fun r' hr' => ?_⟩
    obtain ⟨w', -, -, ne'⟩ := total_facts hM hδ hok hB hb hr'
    obtain ⟨r, hr, rfl⟩ := Option.map_eq_some_iff.1 hr'
    obtain ⟨f, g, hf, hg, hr⟩ := run_two hr
    obtain ⟨ht, ε, η, hq, hst⟩ := hB.2.2 f g hf hg
    have hred := stored_redrawn hst hr
    refine redrawn_shape hred ?_
    have ne := redrawn_ne (redrawn_symm hred) ne'
    obtain ⟨f1, f0, f3, f2⟩ := total_facts hM hδ a1 hB.1 ba hf
    obtain ⟨g1, g0, g3, g2⟩ := total_facts hM hδ b1 hB.2.1 bb hg
    have args : MMArgs (exactPar M.par) f g := ⟨hM.same ▸ hM.eps, f2, g2, hM.same ▸ f1, hM.same ▸ g1, hok.2.2 f g hf hg⟩
    have args' : MMArgs M.par f g := ⟨hM.same ▸ hM.eps, f2, g2, hM.same ▸ f1, hM.same ▸ g1, hok.2.2 f g hf hg⟩
    obtain ⟨l, hl, w, -⟩ := Conv.C15_max_law_partial args (exactPar_exact M.par) f0 g0
    have hn := max_near args' (fun x => (hst.nonneg x).1) f0 g0 ht hq
    rw [hl, hr] at hn
    have hn' : List.Forall₂ Redrawn l r := List.Forall₂.imp (fun _ _ => near_redrawn) hn
    refine redrawn_shape hn' ?_
    have ne := redrawn_ne (redrawn_symm hn') ne
    have key : Cont x ∧ Cont y → Tidy l := fun hc =>
      mm_tidy (opMax (exactPar_exact M.par)) args ((a2 f hf).cont hc.1) ((b2 g hg).cont hc.2) hl w ne
    refine ⟨fun hc => (key hc).cont, fun hc h => mm_pos (opMax (exactPar_exact M.par)) args ((a2 f hf).cont hc.1) ((b2 g hg).cont hc.2) hl
      fun a ha b hb => ?_, fun hc => ⟨(key hc).hole, (key hc).holeRight⟩⟩
    rcases h with h | h
    · exact le_max_of_le_left (breaks_pos f1 ((a2 f hf).pos (cont_plain hc.1) h) ha)
    · exact le_max_of_le_right (breaks_pos g1 ((b2 g hg).pos (cont_plain hc.2) h) hb)

end Pacal.Identity
