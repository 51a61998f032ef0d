import Verif.Identity.PropsErr

/-!
Lemmas for `Verif.Identity.PropsErrExact`: with exact comparisons the conditions of `NodesOK` hold.
-/

namespace Pacal.Identity
open MeasureTheory ProbabilityTheory Standard Set Conv

variable {M : Machine} {replace : Expr → PF ℝ → PF ℝ} {δ : Expr → ℝ}

theorem runWith_facts (hM : MachineOK M) (hA : Accurate M replace δ) {e : Expr} (h : NodesOK M replace e) (hb : bound δ e < 1) {r : PF ℝ}
    (hr : e.runWith M replace = some r) : PF.WF M.env.eps r ∧ PF.Dens r ∧ Within (bound δ e) (PF.law r) (exprLaw e) ∧ r ≠ [] := by
  obtain ⟨r', e1, w, d, l⟩ := C91_errors_partial hM hA h hb
  obtain rfl : r' = r := Option.some.inj (e1.symm.trans hr)
  have := nodes_prob h
  exact ⟨w, d, l, within_ne l hb⟩

theorem redrawn_ne {l r : PF ℝ} (h : List.Forall₂ Redrawn l r) (hl : l ≠ []) : r ≠ [] := by
  rintro rfl
  exact hl (List.forall₂_nil_right_iff.1 h)

/-- a table is not changed -/
theorem table_runWith (hM : MachineOK M) (hA : Accurate M replace δ) {t : List (ℝ × ℝ)} (h : TableOK M.env.eps t) {r : PF ℝ}
    (hr : (Expr.discrete t).runWith M replace = some r) : (Expr.discrete t).run M = some r := by
  obtain ⟨h1, w⟩ := discretePF_eq hM.eps h.2.2
  rw [Expr.runWith, h1, Option.map_some] at hr
  rw [Expr.run, h1, ← Option.some.inj hr, redrawn_table (hA.pieces (.discrete t) (atomPieces (tableSort t)))]

theorem notZero_alive (hM : MachineOK M) (hA : Accurate M replace δ) {e : Expr} (h : NodesOK M replace e) (hb : bound δ e < 1)
    (hn : NotZero e) {r : PF ℝ} (hr : e.runWith M replace = some r) (hs : Shape M.neg0 e r) : PF.law r {0}ᶜ ≠ 0 := by
  have key : Cont e → PF.law r {0}ᶜ ≠ 0 := fun hc => by
    have := nodes_prob h
    exact within_alive (runWith_facts hM hA h hb hr).2.2.1 hb (hs.cont hc)
  cases e with
  | discrete t =>
    have h' : ExprOK M (.discrete t) := h
    have := expr_prob h'
    rw [(run_facts hM h' (table_runWith hM hA h hr)).2.2.1]
    exact alive (table_notZero h hn)
  | _ => exact key hn

theorem zeroFree_with (hM : MachineOK M) (hA : Accurate M replace δ) {e : Expr} (h : NodesOK M replace e) (hz : ZeroFree e) {r : PF ℝ}
    (hr : e.runWith M replace = some r) (hs : Shape M.neg0 e r) (m : ℝ) : Seg.dirac 0 m ∉ r := by
  cases e with
  | discrete t => exact zeroFree_atoms (e := .discrete t) hM h hz (table_runWith hM hA h hr) hs m
  | _ => exact not_dirac (hs.cont hz) 0 m

theorem defined_nodes (hM : Unlimited M) (hA : Accurate M replace δ) : ∀ {e : Expr}, Defined M.neg0 e → bound δ e < 1 →
    NodesOK M replace e ∧ ∀ r, e.runWith M replace = some r → Shape M.neg0 e r
  | .dist k, ⟨hv, hx⟩, _ => by
    refine ⟨⟨hv, hx⟩, fun r' hr' => ?_⟩
    obtain ⟨r, hr, rfl⟩ := Option.map_eq_some_iff.1 hr'
    refine redrawn_shape (hA.pieces _ r) ?_
    obtain ⟨r', e1, w, -⟩ := kind_rep (E := M.env) hM.eps hM.lg hv hx
    obtain rfl : r' = r := Option.some.inj (e1.symm.trans hr)
    exact .of_tidy (kind_tidy hv hr w) fun hp => pos_dist hM.toMachineOK hv hx hp hr
  | .discrete t, h, _ => by
    have h' : TableOK M.env.eps t := hM.eps0 ▸ h
    exact ⟨h', fun r hr => table_shape hM.eps h' (table_runWith hM.toMachineOK hA h' hr)⟩
  | .step s e, ⟨he, hc, hs⟩, hb => by
    have ba : bound δ e < 1 := lt_of_le_of_lt (le_add_of_nonneg_right (hA.nonneg _)) hb
    obtain ⟨h1, h2⟩ := defined_nodes hM hA he ba
    have hp := fun l hl => (h2 l hl).pos (cont_plain hc)
    refine ⟨⟨h1, fun l hl => ⟨(h2 l hl).cont hc, stepOK_mono (hp l hl) hs⟩⟩, fun r' hr' => ?_⟩
    obtain ⟨r, hr, rfl⟩ := Option.map_eq_some_iff.1 hr'
    refine redrawn_shape (hA.pieces _ r) ?_
    obtain ⟨l, hl, hr⟩ := Option.bind_eq_some_iff.1 hr
    obtain ⟨w, d, -, ne⟩ := runWith_facts hM.toMachineOK hA h1 ba hl
    have c := (h2 l hl).cont hc
    obtain ⟨c', p', t'⟩ := step_shape M hM.eps w d c s (stepOK_mono (hp l hl) hs) hr
    refine ⟨fun _ => c', fun _ h => p' (stepNonneg_mono (hp l hl) h), fun h => ?_⟩
    have := t' (stepGapless_mono (hp l hl) (fun g => ⟨ne, c, ((h2 l hl).hole g).1, ((h2 l hl).hole g).2⟩) h)
    exact ⟨this.hole, this.holeRight⟩
  | .add x y, ⟨ha, hb', ga, gb⟩, hb => by
    obtain ⟨ba, bb⟩ := two_lt (bound_nonneg hA.nonneg x) (bound_nonneg hA.nonneg y) (hA.nonneg (.add x y)) hb
    obtain ⟨a1, a2⟩ := defined_nodes hM hA ha ba
    obtain ⟨b1, b2⟩ := defined_nodes hM hA hb' bb
    have hok : NodesOK M replace (.add x y) := ⟨a1, b1, fun f g hf hg => ⟨((a2 f hf).hole ga).1, ((b2 g hg).hole gb).1,
      apart0 (by rw [hM.same, hM.eps0, hM.brk0, max_self]) f g⟩⟩
    refine ⟨hok, fun r' hr' => ?_⟩
    obtain ⟨w', -, -, ne'⟩ := runWith_facts hM.toMachineOK hA hok hb hr'
    obtain ⟨r, hr, rfl⟩ := Option.map_eq_some_iff.1 hr'
    refine redrawn_shape (hA.pieces _ r) ?_
    have w := redrawn_wf (redrawn_symm (hA.pieces (.add x y) r)) w'
    have ne := redrawn_ne (redrawn_symm (hA.pieces (.add x y) r)) ne'
    obtain ⟨f, g, hf, hg, hr⟩ := run_two hr
    obtain ⟨f1, -, f3, f2⟩ := runWith_facts hM.toMachineOK hA a1 ba hf
    obtain ⟨g1, -, g3, g2⟩ := runWith_facts hM.toMachineOK hA b1 bb hg
    obtain ⟨u, v, z⟩ := hok.2.2 f g hf hg
    have args : SumArgs M.par f g := ⟨hM.same ▸ hM.eps, hM.brk, f2, g2, hM.same ▸ f1, hM.same ▸ g1, u, v, z⟩
    have key : Cont x ∨ Cont y → Tidy r := fun hc => conv_tidy args (hc.imp (a2 f hf).cont (b2 g hg).cont) hr (hM.same ▸ w) ne
    exact ⟨fun hc => (key hc).cont, fun hc h => conv_pos args (Or.imp (a2 f hf).cont (b2 g hg).cont hc)
      ((a2 f hf).pos (gapless_plain ha ga) h.1) ((b2 g hg).pos (gapless_plain hb' gb) h.2) hr,
      fun hc => ⟨(key hc).hole, (key hc).holeRight⟩⟩
  | .sub x y, ⟨ha, hb', ga, gb⟩, hb => by
    obtain ⟨ba, bb⟩ := two_lt (bound_nonneg hA.nonneg x) (bound_nonneg hA.nonneg y) (hA.nonneg (.sub x y)) hb
    obtain ⟨a1, a2⟩ := defined_nodes hM hA ha ba
    obtain ⟨b1, b2⟩ := defined_nodes hM hA hb' bb
    have hok : NodesOK M replace (.sub x y) := ⟨a1, b1, fun f g hf hg => ⟨((a2 f hf).hole ga).1, ((b2 g hg).hole gb).2,
      apart0 (by rw [hM.same, hM.eps0, hM.brk0, max_self]) f g⟩⟩
    refine ⟨hok, fun r' hr' => ?_⟩
    obtain ⟨w', -, -, ne'⟩ := runWith_facts hM.toMachineOK hA hok hb hr'
    obtain ⟨r, hr, rfl⟩ := Option.map_eq_some_iff.1 hr'
    refine redrawn_shape (hA.pieces _ r) ?_
    have w := redrawn_wf (redrawn_symm (hA.pieces (.sub x y) r)) w'
    have ne := redrawn_ne (redrawn_symm (hA.pieces (.sub x y) r)) ne'
    obtain ⟨f, g, hf, hg, hr⟩ := run_two hr
    obtain ⟨f1, -, f3, f2⟩ := runWith_facts hM.toMachineOK hA a1 ba hf
    obtain ⟨g1, -, g3, g2⟩ := runWith_facts hM.toMachineOK hA b1 bb hg
    obtain ⟨u, v, z⟩ := hok.2.2 f g hf hg
    have key : Cont x ∨ Cont y → Tidy r := fun hc => sub_tidy (hM.same ▸ hM.eps) hM.brk (hc.imp (a2 f hf).cont (b2 g hg).cont) f2 g2
      u v (hM.same ▸ f1) (hM.same ▸ g1) z hr (hM.same ▸ w) ne
    exact ⟨fun hc => (key hc).cont, fun _ h => h.elim, fun hc => ⟨(key hc).hole, (key hc).holeRight⟩⟩
  | .mul x y, ⟨ha, hb', na, nb⟩, hb => by
    obtain ⟨ba, bb⟩ := two_lt (bound_nonneg hA.nonneg x) (bound_nonneg hA.nonneg y) (hA.nonneg (.mul x y)) hb
    obtain ⟨a1, a2⟩ := defined_nodes hM hA ha ba
    obtain ⟨b1, b2⟩ := defined_nodes hM hA hb' bb
    have hok : NodesOK M replace (.mul x y) := ⟨a1, b1, fun f g hf hg =>
      ⟨notZero_alive hM.toMachineOK hA a1 ba na hf (a2 f hf), notZero_alive hM.toMachineOK hA b1 bb nb hg (b2 g hg),
      apartMul0 (by rw [hM.same, hM.eps0]) f g⟩⟩
    refine ⟨hok, fun r' hr' => ?_⟩
    obtain ⟨w', -, -, ne'⟩ := runWith_facts hM.toMachineOK hA hok hb hr'
    obtain ⟨r, hr, rfl⟩ := Option.map_eq_some_iff.1 hr'
    refine redrawn_shape (hA.pieces _ r) ?_
    have w := redrawn_wf (redrawn_symm (hA.pieces (.mul x y) r)) w'
    have ne := redrawn_ne (redrawn_symm (hA.pieces (.mul x y) r)) ne'
    obtain ⟨f, g, hf, hg, hr⟩ := run_two hr
    obtain ⟨f1, -, f3, f2⟩ := runWith_facts hM.toMachineOK hA a1 ba hf
    obtain ⟨g1, -, g3, g2⟩ := runWith_facts hM.toMachineOK hA b1 bb hg
    obtain ⟨u, v, z⟩ := hok.2.2 f g hf hg
    have args : ProdArgs M.par f g := ⟨hM.same ▸ hM.eps, f2, g2, hM.same ▸ f1, hM.same ▸ g1, z, .inl ⟨u, v⟩⟩
    have key : Cont x ∧ Cont y → Tidy r := fun hc => prod_tidy args ((a2 f hf).cont hc.1) ((b2 g hg).cont hc.2) hr (hM.same ▸ w) ne
    exact ⟨fun hc => (key hc).cont, fun hc h => prod_pos args ((a2 f hf).cont hc.1) ((b2 g hg).cont hc.2)
      ((a2 f hf).pos (cont_plain hc.1) h.1) ((b2 g hg).pos (cont_plain hc.2) h.2) hr, fun hc => ⟨(key hc).hole, (key hc).holeRight⟩⟩
  | .div x y, ⟨ha, hb', za, cb⟩, hb => by
    obtain ⟨ba, bb⟩ := two_lt (bound_nonneg hA.nonneg x) (bound_nonneg hA.nonneg y) (hA.nonneg (.div x y)) hb
    obtain ⟨a1, a2⟩ := defined_nodes hM hA ha ba
    obtain ⟨b1, b2⟩ := defined_nodes hM hA hb' bb
    have hok : NodesOK M replace (.div x y) := ⟨a1, b1, fun f g hf hg => ⟨(b2 g hg).cont cb,
      zeroFree_with hM.toMachineOK hA a1 za hf (a2 f hf), apartDiv0 (by rw [hM.same, hM.eps0]) f g⟩⟩
    refine ⟨hok, fun r' hr' => ?_⟩
    obtain ⟨w', -, -, ne'⟩ := runWith_facts hM.toMachineOK hA hok hb hr'
    obtain ⟨r, hr, rfl⟩ := Option.map_eq_some_iff.1 hr'
    refine redrawn_shape (hA.pieces _ r) ?_
    have w := redrawn_wf (redrawn_symm (hA.pieces (.div x y) r)) w'
    have ne := redrawn_ne (redrawn_symm (hA.pieces (.div x y) r)) ne'
    obtain ⟨f, g, hf, hg, hr⟩ := run_two hr
    obtain ⟨f1, -, f3, f2⟩ := runWith_facts hM.toMachineOK hA a1 ba hf
    obtain ⟨g1, -, g3, g2⟩ := runWith_facts hM.toMachineOK hA b1 bb hg
    have args : DivBase M.par f g :=
      ⟨hM.same ▸ hM.eps, f2, g2, hM.same ▸ f1, hM.same ▸ g1, (hok.2.2 f g hf hg).2.2, fun n => not_dirac ((b2 g hg).cont cb) 0 n⟩
    have := div_tidy args (.inr ((b2 g hg).cont cb)) hr (hM.same ▸ w) ne
    exact .of_tidy this fun h => div_pos' args (.inr ((b2 g hg).cont cb)) ((a2 f hf).pos (zeroFree_plain za) h.2.1)
      ((b2 g hg).pos (cont_plain cb) h.2.2) (h.1 ▸ hr)
  | .min x y, ⟨ha, hb'⟩, hb => by
    obtain ⟨ba, bb⟩ := two_lt (bound_nonneg hA.nonneg x) (bound_nonneg hA.nonneg y) (hA.nonneg (.min x y)) hb
    obtain ⟨a1, a2⟩ := defined_nodes hM hA ha ba
    obtain ⟨b1, b2⟩ := defined_nodes hM hA hb' bb
    have hok : NodesOK M replace (.min x y) := ⟨a1, b1, fun f g _ _ => atomsApart0 (by rw [hM.same, hM.eps0]) f g⟩
    refine ⟨hok, fun r' hr' => ?_⟩
    obtain ⟨w', -, -, ne'⟩ := runWith_facts hM.toMachineOK hA hok hb hr'
    obtain ⟨r, hr, rfl⟩ := Option.map_eq_some_iff.1 hr'
    refine redrawn_shape (hA.pieces _ r) ?_
    have w := redrawn_wf (redrawn_symm (hA.pieces (.min x y) r)) w'
    have ne := redrawn_ne (redrawn_symm (hA.pieces (.min x y) r)) ne'
    obtain ⟨f, g, hf, hg, hr⟩ := run_two hr
    obtain ⟨f1, -, f3, f2⟩ := runWith_facts hM.toMachineOK hA a1 ba hf
    obtain ⟨g1, -, g3, g2⟩ := runWith_facts hM.toMachineOK hA b1 bb hg
    have args : MMArgs M.par f g := ⟨hM.same ▸ hM.eps, f2, g2, hM.same ▸ f1, hM.same ▸ g1, hok.2.2 f g hf hg⟩
    have key : Cont x ∧ Cont y → Tidy r := fun hc =>
      mm_tidy (opMin hM.quad) args ((a2 f hf).cont hc.1) ((b2 g hg).cont hc.2) hr (hM.same ▸ w) ne
    exact ⟨fun hc => (key hc).cont, fun hc h => mm_pos (opMin hM.quad) args ((a2 f hf).cont hc.1) ((b2 g hg).cont hc.2) hr fun a ha b hb =>
      le_min (breaks_pos f1 ((a2 f hf).pos (cont_plain hc.1) h.1) ha) (breaks_pos g1 ((b2 g hg).pos (cont_plain hc.2) h.2) hb),
      fun hc => ⟨(key hc).hole, (key hc).holeRight⟩⟩
  | .max x y, ⟨ha, hb'⟩, hb => by
    obtain ⟨ba, bb⟩ := two_lt (bound_nonneg hA.nonneg x) (bound_nonneg hA.nonneg y) (hA.nonneg (.max x y)) hb
    obtain ⟨a1, a2⟩ := defined_nodes hM hA ha ba
    obtain ⟨b1, b2⟩ := defined_nodes hM hA hb' bb
    have hok : NodesOK M replace (.max x y) := ⟨a1, b1, fun f g _ _ => atomsApart0 (by rw [hM.same, hM.eps0]) f g⟩
    refine ⟨hok, fun r' hr' => ?_⟩
    obtain ⟨w', -, -, ne'⟩ := runWith_facts hM.toMachineOK hA hok hb hr'
    obtain ⟨r, hr, rfl⟩ := Option.map_eq_some_iff.1 hr'
    refine redrawn_shape (hA.pieces _ r) ?_
    have w := redrawn_wf (redrawn_symm (hA.pieces (.max x y) r)) w'
    have ne := redrawn_ne (redrawn_symm (hA.pieces (.max x y) r)) ne'
    obtain ⟨f, g, hf, hg, hr⟩ := run_two hr
    obtain ⟨f1, -, f3, f2⟩ := runWith_facts hM.toMachineOK hA a1 ba hf
    obtain ⟨g1, -, g3, g2⟩ := runWith_facts hM.toMachineOK hA b1 bb hg
    have args : MMArgs M.par f g := ⟨hM.same ▸ hM.eps, f2, g2, hM.same ▸ f1, hM.same ▸ g1, hok.2.2 f g hf hg⟩
    have key : Cont x ∧ Cont y → Tidy r := fun hc =>
      mm_tidy (opMax hM.quad) args ((a2 f hf).cont hc.1) ((b2 g hg).cont hc.2) hr (hM.same ▸ w) ne
    refine ⟨fun hc => (key hc).cont, fun hc h => mm_pos (opMax hM.quad) args ((a2 f hf).cont hc.1) ((b2 g hg).cont hc.2) hr
      fun a ha b hb => ?_, fun hc => ⟨(key hc).hole, (key hc).holeRight⟩⟩
    rcases h with h | h
    · exact le_max_of_le_left (breaks_pos f1 ((a2 f hf).pos (cont_plain hc.1) h) ha)
    · exact le_max_of_le_right (breaks_pos g1 ((b2 g hg).pos (cont_plain hc.2) h) hb)

/-! ### bounds in terms of the number of nodes -/

theorem bound_pow {d : ℝ} (hd : 0 ≤ d) (h : ∀ e, 0 ≤ δ e) (h' : ∀ e, δ e ≤ d) : ∀ e, 1 + bound δ e ≤ (1 + d) ^ nodes e
  | .dist k | .discrete t => by simpa [bound, nodes] using h' _
  | .step s e => by
    have h1 := bound_pow hd h h' e
    have h2 := one_le_pow₀ (show (1 : ℝ) ≤ 1 + d by linarith) (n := nodes e)
    simp only [bound, nodes, pow_succ]
    nlinarith [h' (.step s e)]
  | .add a b | .sub a b | .mul a b | .div a b | .min a b | .max a b => by
    have h1 := bound_pow hd h h' a
    have h2 := bound_pow hd h h' b
    have h3 := one_le_pow₀ (show (1 : ℝ) ≤ 1 + d by linarith) (n := nodes a + nodes b)
    have h4 : (1 + bound δ a) * (1 + bound δ b) ≤ (1 + d) ^ (nodes a + nodes b) := by
      rw [pow_add]
      exact mul_le_mul h1 h2 (by linarith [bound_nonneg h b]) (by positivity)
    simp only [bound, nodes, pow_succ]
    nlinarith [h' (.add a b), h' (.sub a b), h' (.mul a b), h' (.div a b), h' (.min a b), h' (.max a b)]

theorem bound_linear {d : ℝ} (hd : 0 ≤ d) (h : ∀ e, 0 ≤ δ e) (h' : ∀ e, δ e ≤ d) {e : Expr} (hs : nodes e * d ≤ 1) :
    bound δ e ≤ 2 * nodes e * d := by
  have h1 := bound_pow hd h h' e
  have h2 : (1 + d) ^ nodes e ≤ Real.exp (nodes e * d) := by
    rw [Real.exp_nat_mul]
    exact pow_le_pow_left₀ (by linarith) (by linarith [Real.add_one_le_exp d]) _
  have h0 : 0 ≤ nodes e * d := by positivity
  have h3 := Real.abs_exp_sub_one_le (x := nodes e * d) (by rwa [abs_of_nonneg h0])
  rw [abs_of_nonneg h0] at h3
  linarith [le_abs_self (Real.exp (nodes e * d) - 1)]

end Pacal.Identity
