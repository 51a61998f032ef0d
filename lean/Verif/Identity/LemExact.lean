import Verif.Identity.LemShape
import Verif.Identity.PropsExpr

/-!
Lemmas for `Verif.Identity.PropsExact`: with exact comparisons the conditions of `ExprOK` hold.
-/

namespace Pacal.Identity
open MeasureTheory ProbabilityTheory Standard Set Conv

theorem apart0 {op : ℝ → ℝ → ℝ} {δ : ℝ} (h : δ = 0) (f g : PF ℝ) : Apart op δ f g := by
  intro a _ b _ a' _ b' _ hne
  rw [h]; exact abs_pos.2 (sub_ne_zero.2 hne)

theorem apartMul0 {δ : ℝ} (h : δ = 0) (f g : PF ℝ) : ApartMul δ f g := by
  intro a _ b _ a' _ b' _ hne
  rw [h, zero_mul]; exact abs_pos.2 (sub_ne_zero.2 hne)

theorem apartDiv0 {δ : ℝ} (h : δ = 0) (f g : PF ℝ) : ApartDiv δ f g := by
  intro u _ v _ hne
  rw [h, zero_mul]; exact abs_pos.2 (sub_ne_zero.2 hne)

theorem atomsApart0 {δ : ℝ} (h : δ = 0) (f g : PF ℝ) : PF.AtomsApart δ f g := by
  intro a m a' m' _ _
  rw [h]; exact (eq_or_ne a a').imp_right fun hne => abs_pos.2 (sub_ne_zero.2 hne)

theorem atomsApart_cont {δ : ℝ} {f g : PF ℝ} (h : ContPF f) : PF.AtomsApart δ f g := by
  intro a m a' m' h1
  exact absurd h1 (not_dirac h _ _)

theorem cont_zero {l : PF ℝ} (h : ContPF l) : PF.law l {0} = 0 := by
  induction l with
  | nil => simp [PF.law_nil]
  | cons s l ih =>
    rw [PF.law_cons, Measure.add_apply, ih fun t ht => h t (List.mem_cons_of_mem _ ht), add_zero, Seg.law_inner (h s (by simp))]
    rw [withDensity_apply _ (measurableSet_singleton 0)]
    refine setLIntegral_measure_zero _ _ ?_
    exact le_antisymm (Measure.restrict_apply_le _ _ |>.trans (by simp)) (by simp)

theorem run_facts {M : Machine} (hM : MachineOK M) {e : Expr} (h : ExprOK M e) {r : PF ℝ} (hr : e.run M = some r) :
    PF.WF M.env.eps r ∧ PF.Dens r ∧ PF.law r = exprLaw e ∧ r ≠ [] := by
  obtain ⟨r', e1, w, d, l⟩ := C68_expression_partial hM h
  obtain rfl : r' = r := Option.some.inj (e1.symm.trans hr)
  have := expr_prob h
  exact ⟨w, d, l, ne_nil l⟩

theorem run_step {M : Machine} {s : Step} {e : Expr} {r : PF ℝ} (h : (Expr.step s e).run M = some r) :
    ∃ l, e.run M = some l ∧ s.run M l = some r := Option.bind_eq_some_iff.1 h

theorem run_two {a b : Option (PF ℝ)} {op : PF ℝ → PF ℝ → Option (PF ℝ)} {r : PF ℝ}
    (h : (a.bind fun f => b.bind fun g => op f g) = some r) : ∃ f g, a = some f ∧ b = some g ∧ op f g = some r := by
  obtain ⟨f, hf, h⟩ := Option.bind_eq_some_iff.1 h
  obtain ⟨g, hg, h⟩ := Option.bind_eq_some_iff.1 h
  exact ⟨f, g, hf, hg, h⟩

theorem pos_dist {M : Machine} (hM : MachineOK M) {k : Kind} (hv : k.Valid) (hx : Exact k) (hp : KindPos k) {l : PF ℝ}
    (h : (Expr.dist k).run M = some l) : PosPF l := by
  obtain ⟨r, e1, w, -⟩ := kind_rep (E := M.env) hM.eps hM.lg hv hx
  obtain rfl : r = l := Option.some.inj (e1.symm.trans h)
  exact kind_pos hv hp h w

theorem stepNonneg_mono {p q : Prop} (h : p → q) {s : Step} : StepNonneg p s → StepNonneg q s := by
  cases s <;> simp only [StepNonneg] <;> tauto

theorem stepGapless_mono {p q p' q' : Prop} (h : p → q) (h' : p' → q') {s : Step} : StepGapless p p' s → StepGapless q q' s := by
  cases s <;> simp only [StepGapless] <;> tauto

/-- a table, or an expression without atoms -/
def Plain : Expr → Prop
  | .discrete _ => True
  | e => Cont e

theorem cont_plain {e : Expr} (h : Cont e) : Plain e := by
  cases e <;> first | exact h | exact trivial

theorem gapless_plain {b : Bool} {e : Expr} (hd : Defined b e) (h : Gapless b e) : Plain e := by
  cases e <;> first | exact h | exact trivial | exact hd.2.1

theorem zeroFree_plain {e : Expr} (h : ZeroFree e) : Plain e := by
  cases e <;> first | exact h | exact trivial

/-- what is known of the density of an expression -/
structure Shape (b : Bool) (e : Expr) (r : PF ℝ) : Prop where
  cont : Cont e → ContPF r
  pos : Plain e → Nonneg b e → PosPF r
  hole : Gapless b e → r.NoHole ∧ r.NoHoleRight

theorem Shape.of_tidy {b : Bool} {e : Expr} {r : PF ℝ} (h : Tidy r) (hp : Nonneg b e → PosPF r) : Shape b e r :=
  ⟨fun _ => h.cont, fun _ => hp, fun _ => ⟨h.hole, h.holeRight⟩⟩

theorem atomPieces_lo : ∀ {t : List (ℝ × ℝ)} {s : Seg ℝ}, s ∈ atomPieces t → ∃ p ∈ t, s.lo = .fin p.1
  | [], _, h => by simp [atomPieces] at h
  | [p], s, h => by
    simp only [atomPieces, List.mem_singleton] at h
    exact ⟨p, by simp, by rw [h]; rfl⟩
  | p :: q :: t, s, h => by
    simp only [atomPieces, List.mem_cons] at h
    rcases h with rfl | rfl | h
    · exact ⟨p, by simp, rfl⟩
    · exact ⟨p, by simp, rfl⟩
    · obtain ⟨u, hu, e⟩ := atomPieces_lo h
      exact ⟨u, List.mem_cons_of_mem _ hu, e⟩

theorem atomPieces_hole : ∀ {t : List (ℝ × ℝ)}, t.Pairwise (fun a b => a.1 < b.1) →
    (atomPieces t).NoHole ∧ (atomPieces t).NoHoleRight
  | [], _ => by simp [atomPieces, PF.NoHole, PF.NoHoleRight]
  | [p], _ => by
    constructor <;> intro s hs <;> simp only [atomPieces, List.mem_singleton] at hs <;> subst hs <;>
      exact .inl fun t ht => by simp only [atomPieces, List.mem_singleton] at ht; rw [ht]
  | p :: q :: t, h => by
    have h' := List.pairwise_cons.1 h
    have hq : ∀ u ∈ q :: t, q.1 ≤ u.1 := by
      intro u hu
      rcases List.mem_cons.1 hu with rfl | hu
      · exact le_rfl
      · exact ((List.pairwise_cons.1 h'.2).1 u hu).le
    have hpq : p.1 < q.1 := h'.1 q (by simp)
    obtain ⟨i1, i2⟩ := atomPieces_hole h'.2
    have hd : ∃ s ∈ atomPieces (q :: t), s.lo = .fin q.1 ∧ s.hi = .fin q.1 := by
      cases t with
      | nil => exact ⟨.dirac q.1 q.2, by simp [atomPieces], rfl, rfl⟩
      | cons u t => exact ⟨.dirac q.1 q.2, by simp [atomPieces], rfl, rfl⟩
    obtain ⟨d, hd, d1, d2⟩ := hd
    constructor
    · intro s hs
      simp only [atomPieces, List.mem_cons] at hs
      rcases hs with rfl | rfl | hs
      · refine .inl fun u hu => ?_
        obtain ⟨v, hv, e⟩ := atomPieces_lo hu
        rw [e]
        refine extFin_le.2 ?_
        rcases List.mem_cons.1 hv with rfl | hv
        · exact le_rfl
        · exact (h'.1 v hv).le
      · exact .inr ⟨.dirac p.1 p.2, by simp [atomPieces], rfl⟩
      · rcases i1 s hs with h1 | ⟨u, hu, e⟩
        · right
          refine ⟨.const p.1 q.1 0, by simp [atomPieces], ?_⟩
          obtain ⟨v, hv, e⟩ := atomPieces_lo hs
          have h2 := h1 d hd
          rw [d1, e] at h2
          rw [e, show v.1 = q.1 from le_antisymm (extFin_le.1 h2) (hq v hv)]
          rfl
        · exact .inr ⟨u, by simp [atomPieces, hu], e⟩
    · intro s hs
      simp only [atomPieces, List.mem_cons] at hs
      rcases hs with rfl | rfl | hs
      · exact .inr ⟨.const p.1 q.1 0, by simp [atomPieces], rfl⟩
      · exact .inr ⟨d, by simp [atomPieces, hd], d1⟩
      · rcases i2 s hs with h1 | ⟨u, hu, e⟩
        · refine .inl fun u hu => ?_
          simp only [atomPieces, List.mem_cons] at hu
          rcases hu with rfl | rfl | hu
          · refine le_trans ?_ (h1 d hd)
            rw [d2]; exact extFin_le.2 hpq.le
          · refine le_trans ?_ (h1 d hd)
            rw [d2]; exact le_rfl
          · exact h1 u hu
        · exact .inr ⟨u, by simp [atomPieces, hu], e⟩

theorem tableSort_lt {eps : ℝ} (he : 0 ≤ eps) {t : List (ℝ × ℝ)} (hs : t.Pairwise fun a b => eps < |a.1 - b.1|) :
    (tableSort t).Pairwise fun a b => a.1 < b.1 := by
  have h1 : (tableSort t).Pairwise fun a b => eps < |a.1 - b.1| :=
    ((tableSort_perm t).pairwise_iff (fun {a b} h => by rwa [abs_sub_comm])).2 hs
  refine (h1.and (tableSort_sorted t)).imp fun {a b} h => lt_of_le_of_ne h.2 fun e => ?_
  have := h.1
  rw [e, sub_self, abs_zero] at this
  linarith

theorem table_shape {b : Bool} {eps : ℝ} (he : 0 ≤ eps) {t : List (ℝ × ℝ)} (h : TableOK eps t) {r : PF ℝ}
    (hr : discretePF eps t = some r) : Shape b (.discrete t) r := by
  obtain ⟨h1, w⟩ := discretePF_eq he h.2.2
  obtain rfl : atomPieces (tableSort t) = r := Option.some.inj (h1.symm.trans hr)
  have hperm := tableSort_perm t
  have hs : (tableSort t).Pairwise fun a b => a.1 < b.1 := tableSort_lt he h.2.2
  refine ⟨fun h => h.elim, fun _ hn s hs => ?_, fun _ => atomPieces_hole hs⟩
  obtain ⟨p, hp, e⟩ := atomPieces_lo hs
  rw [e]
  exact extFin_le.2 (hn p (hperm.mem_iff.1 hp))

theorem table_notZero {δ : ℝ} {t : List (ℝ × ℝ)} (h : TableOK δ t) (hn : ∃ p ∈ t, p.1 ≠ 0 ∧ 0 < p.2) :
    exprLaw (.discrete t) {0} ≠ 1 := by
  have : IsProbabilityMeasure (exprLaw (.discrete t)) := table_prob h
  intro h1
  obtain ⟨p, hp, h0, hm⟩ := hn
  have h2 : exprLaw (.discrete t) {0}ᶜ = 0 := (prob_compl_eq_zero_iff (measurableSet_singleton 0)).2 h1
  have h3 : ∀ t : List (ℝ × ℝ), p ∈ t →
      ENNReal.ofReal p.2 ≤ (t.map fun p => ENNReal.ofReal p.2 • Measure.dirac p.1 : List (Measure ℝ)).sum {0}ᶜ := by
    intro t ht
    induction t with
    | nil => simp at ht
    | cons q t ih =>
      simp only [List.map_cons, List.sum_cons, Measure.add_apply]
      rcases List.mem_cons.1 ht with rfl | ht
      · refine le_trans ?_ le_self_add
        rw [Measure.smul_apply, Measure.dirac_apply_of_mem (by simpa using h0), smul_eq_mul, mul_one]
      · exact (ih ht).trans le_add_self
  have h4 := h3 t hp
  rw [show (t.map fun p => ENNReal.ofReal p.2 • Measure.dirac p.1 : List (Measure ℝ)).sum = exprLaw (.discrete t) from rfl, h2] at h4
  exact absurd (ENNReal.ofReal_pos.2 hm) (not_lt.2 h4)

theorem notZero_law {M : Machine} (hM : MachineOK M) {e : Expr} (h : ExprOK M e) (hn : NotZero e)
    (hs : ∀ r, e.run M = some r → Shape M.neg0 e r) : exprLaw e {0} ≠ 1 := by
  have key : Cont e → exprLaw e {0} ≠ 1 := by
    intro hc
    obtain ⟨r, hr, -, -, hl⟩ := C68_expression_partial hM h
    rw [← hl, cont_zero ((hs r hr).cont hc)]
    simp
  cases e with
  | discrete t => exact table_notZero h hn
  | _ => exact key hn

theorem zeroFree_atoms {M : Machine} (hM : MachineOK M) {e : Expr} (h : ExprOK M e) (hz : ZeroFree e) {r : PF ℝ}
    (hr : e.run M = some r) (hs : Shape M.neg0 e r) (m : ℝ) : Seg.dirac 0 m ∉ r := by
  cases e with
  | discrete t =>
    obtain ⟨h1, w⟩ := discretePF_eq hM.eps h.2.2
    obtain rfl : atomPieces (tableSort t) = r := Option.some.inj (h1.symm.trans hr)
    intro hm
    obtain ⟨p, hp, e⟩ := atomPieces_lo hm
    have : (0 : ℝ) = p.1 := ext_fin_inj e
    exact hz p ((tableSort_perm t).mem_iff.1 hp) this.symm
  | _ => exact not_dirac (hs.cont hz) 0 m

theorem defined_ok {M : Machine} (hM : Unlimited M) : ∀ {e : Expr}, Defined M.neg0 e → ExprOK M e ∧ ∀ r, e.run M = some r →
    Shape M.neg0 e r
  | .dist k, ⟨hv, hx⟩ => by
    refine ⟨⟨hv, hx⟩, fun r hr => ?_⟩
    obtain ⟨r', e1, w, -⟩ := kind_rep (E := M.env) hM.eps hM.lg hv hx
    obtain rfl : r' = r := Option.some.inj (e1.symm.trans hr)
    have := kind_tidy hv hr w
    exact .of_tidy this fun hp => pos_dist hM.toMachineOK hv hx hp hr
  | .discrete t, h => by
    have h' : TableOK M.env.eps t := hM.eps0 ▸ h
    exact ⟨h', fun r hr => table_shape hM.eps h' hr⟩
  | .step s e, ⟨he, hc, hs⟩ => by
    obtain ⟨h1, h2⟩ := defined_ok hM he
    have hp := fun l hl => (h2 l hl).pos (cont_plain hc)
    refine ⟨⟨h1, fun l hl => ⟨(h2 l hl).cont hc, stepOK_mono (hp l hl) hs⟩⟩, fun r hr => ?_⟩
    obtain ⟨l, hl, hr⟩ := run_step hr
    obtain ⟨w, d, -, ne⟩ := run_facts hM.toMachineOK h1 hl
    have c := (h2 l hl).cont hc
    obtain ⟨c', p', t'⟩ := step_shape M hM.eps w d c s (stepOK_mono (hp l hl) hs) hr
    refine ⟨fun _ => c', fun _ h => p' (stepNonneg_mono (hp l hl) h), fun h => ?_⟩
    have := t' (stepGapless_mono (hp l hl) (fun g => ⟨ne, c, ((h2 l hl).hole g).1, ((h2 l hl).hole g).2⟩) h)
    exact ⟨this.hole, this.holeRight⟩
  | .add x y, ⟨ha, hb, ga, gb⟩ => by
    obtain ⟨a1, a2⟩ := defined_ok hM ha
    obtain ⟨b1, b2⟩ := defined_ok hM hb
    have hok : ExprOK M (.add x y) := ⟨a1, b1, fun f g hf hg => ⟨((a2 f hf).hole ga).1, ((b2 g hg).hole gb).1,
      apart0 (by rw [hM.same, hM.eps0, hM.brk0, max_self]) f g⟩⟩
    refine ⟨hok, fun r hr => ?_⟩
    obtain ⟨w, -, -, ne⟩ := run_facts hM.toMachineOK hok hr
    obtain ⟨f, g, hf, hg, hr⟩ := run_two hr
    obtain ⟨f1, -, -, f2⟩ := run_facts hM.toMachineOK a1 hf
    obtain ⟨g1, -, -, g2⟩ := run_facts hM.toMachineOK b1 hg
    obtain ⟨u, v, z⟩ := hok.2.2 f g hf hg
    have args : SumArgs M.par f g := ⟨hM.same ▸ hM.eps, hM.brk, f2, g2, hM.same ▸ f1, hM.same ▸ g1, u, v, z⟩
    have key : Cont x ∨ Cont y → Tidy r := fun hc => conv_tidy args (hc.imp (a2 f hf).cont (b2 g hg).cont) hr (hM.same ▸ w) ne
    exact ⟨fun hc => (key hc).cont, fun hc h => conv_pos args (Or.imp (a2 f hf).cont (b2 g hg).cont hc)
      ((a2 f hf).pos (gapless_plain ha ga) h.1) ((b2 g hg).pos (gapless_plain hb gb) h.2) hr,
      fun hc => ⟨(key hc).hole, (key hc).holeRight⟩⟩
  | .sub x y, ⟨ha, hb, ga, gb⟩ => by
    obtain ⟨a1, a2⟩ := defined_ok hM ha
    obtain ⟨b1, b2⟩ := defined_ok hM hb
    have hok : ExprOK M (.sub x y) := ⟨a1, b1, fun f g hf hg => ⟨((a2 f hf).hole ga).1, ((b2 g hg).hole gb).2,
      apart0 (by rw [hM.same, hM.eps0, hM.brk0, max_self]) f g⟩⟩
    refine ⟨hok, fun r hr => ?_⟩
    obtain ⟨w, -, -, ne⟩ := run_facts hM.toMachineOK hok hr
    obtain ⟨f, g, hf, hg, hr⟩ := run_two hr
    obtain ⟨f1, -, -, f2⟩ := run_facts hM.toMachineOK a1 hf
    obtain ⟨g1, -, -, g2⟩ := run_facts hM.toMachineOK b1 hg
    obtain ⟨u, v, z⟩ := hok.2.2 f g hf hg
    have key : Cont x ∨ Cont y → Tidy r := fun hc => sub_tidy (hM.same ▸ hM.eps) hM.brk (hc.imp (a2 f hf).cont (b2 g hg).cont) f2 g2
      u v (hM.same ▸ f1) (hM.same ▸ g1) z hr (hM.same ▸ w) ne
    exact ⟨fun hc => (key hc).cont, fun _ h => h.elim, fun hc => ⟨(key hc).hole, (key hc).holeRight⟩⟩
  | .mul x y, ⟨ha, hb, na, nb⟩ => by
    obtain ⟨a1, a2⟩ := defined_ok hM ha
    obtain ⟨b1, b2⟩ := defined_ok hM hb
    have hok : ExprOK M (.mul x y) := ⟨a1, b1, notZero_law hM.toMachineOK a1 na a2, notZero_law hM.toMachineOK b1 nb b2,
      fun f g _ _ => apartMul0 (by rw [hM.same, hM.eps0]) f g⟩
    refine ⟨hok, fun r hr => ?_⟩
    obtain ⟨w, -, -, ne⟩ := run_facts hM.toMachineOK hok hr
    obtain ⟨f, g, hf, hg, hr⟩ := run_two hr
    obtain ⟨f1, -, f3, f2⟩ := run_facts hM.toMachineOK a1 hf
    obtain ⟨g1, -, g3, g2⟩ := run_facts hM.toMachineOK b1 hg
    have p1 := expr_prob a1
    have p2 := expr_prob b1
    have args : ProdArgs M.par f g := ⟨hM.same ▸ hM.eps, f2, g2, hM.same ▸ f1, hM.same ▸ g1, hok.2.2.2.2 f g hf hg,
      .inl (by rw [f3, g3]; exact ⟨alive hok.2.2.1, alive hok.2.2.2.1⟩)⟩
    have key : Cont x ∧ Cont y → Tidy r := fun hc => prod_tidy args ((a2 f hf).cont hc.1) ((b2 g hg).cont hc.2) hr (hM.same ▸ w) ne
    exact ⟨fun hc => (key hc).cont, fun hc h => prod_pos args ((a2 f hf).cont hc.1) ((b2 g hg).cont hc.2)
      ((a2 f hf).pos (cont_plain hc.1) h.1) ((b2 g hg).pos (cont_plain hc.2) h.2) hr, fun hc => ⟨(key hc).hole, (key hc).holeRight⟩⟩
  | .div x y, ⟨ha, hb, za, cb⟩ => by
    obtain ⟨a1, a2⟩ := defined_ok hM ha
    obtain ⟨b1, b2⟩ := defined_ok hM hb
    have hok : ExprOK M (.div x y) :=
      ⟨a1, b1, fun f g hf hg => ⟨(b2 g hg).cont cb, zeroFree_atoms hM.toMachineOK a1 za hf (a2 f hf), apartDiv0 (by rw [hM.same, hM.eps0]) f g⟩⟩
    refine ⟨hok, fun r hr => ?_⟩
    obtain ⟨w, -, -, ne⟩ := run_facts hM.toMachineOK hok hr
    obtain ⟨f, g, hf, hg, hr⟩ := run_two hr
    obtain ⟨f1, -, -, f2⟩ := run_facts hM.toMachineOK a1 hf
    obtain ⟨g1, -, -, g2⟩ := run_facts hM.toMachineOK b1 hg
    have args : DivBase M.par f g :=
      ⟨hM.same ▸ hM.eps, f2, g2, hM.same ▸ f1, hM.same ▸ g1, (hok.2.2 f g hf hg).2.2, fun n => not_dirac ((b2 g hg).cont cb) 0 n⟩
    have := div_tidy args (.inr ((b2 g hg).cont cb)) hr (hM.same ▸ w) ne
    exact .of_tidy this fun h => div_pos' args (.inr ((b2 g hg).cont cb)) ((a2 f hf).pos (zeroFree_plain za) h.2.1)
      ((b2 g hg).pos (cont_plain cb) h.2.2) (h.1 ▸ hr)
  | .min x y, ⟨ha, hb⟩ => by
    obtain ⟨a1, a2⟩ := defined_ok hM ha
    obtain ⟨b1, b2⟩ := defined_ok hM hb
    have hok : ExprOK M (.min x y) := ⟨a1, b1, fun f g _ _ => atomsApart0 (by rw [hM.same, hM.eps0]) f g⟩
    refine ⟨hok, fun r hr => ?_⟩
    obtain ⟨w, -, -, ne⟩ := run_facts hM.toMachineOK hok hr
    obtain ⟨f, g, hf, hg, hr⟩ := run_two hr
    obtain ⟨f1, -, -, f2⟩ := run_facts hM.toMachineOK a1 hf
    obtain ⟨g1, -, -, g2⟩ := run_facts hM.toMachineOK b1 hg
    have args : MMArgs M.par f g := ⟨hM.same ▸ hM.eps, f2, g2, hM.same ▸ f1, hM.same ▸ g1, hok.2.2 f g hf hg⟩
    have key : Cont x ∧ Cont y → Tidy r := fun hc =>
      mm_tidy (opMin hM.quad) args ((a2 f hf).cont hc.1) ((b2 g hg).cont hc.2) hr (hM.same ▸ w) ne
    exact ⟨fun hc => (key hc).cont, fun hc h => mm_pos (opMin hM.quad) args ((a2 f hf).cont hc.1) ((b2 g hg).cont hc.2) hr fun a ha b hb =>
      le_min (breaks_pos f1 ((a2 f hf).pos (cont_plain hc.1) h.1) ha) (breaks_pos g1 ((b2 g hg).pos (cont_plain hc.2) h.2) hb),
      fun hc => ⟨(key hc).hole, (key hc).holeRight⟩⟩
  | .max x y, ⟨ha, hb⟩ => by
    obtain ⟨a1, a2⟩ := defined_ok hM ha
    obtain ⟨b1, b2⟩ := defined_ok hM hb
    have hok : ExprOK M (.max x y) := ⟨a1, b1, fun f g _ _ => atomsApart0 (by rw [hM.same, hM.eps0]) f g⟩
    refine ⟨hok, fun r hr => ?_⟩
    obtain ⟨w, -, -, ne⟩ := run_facts hM.toMachineOK hok hr
    obtain ⟨f, g, hf, hg, hr⟩ := run_two hr
    obtain ⟨f1, -, -, f2⟩ := run_facts hM.toMachineOK a1 hf
    obtain ⟨g1, -, -, g2⟩ := run_facts hM.toMachineOK b1 hg
    have args : MMArgs M.par f g := ⟨hM.same ▸ hM.eps, f2, g2, hM.same ▸ f1, hM.same ▸ g1, hok.2.2 f g hf hg⟩
    have key : Cont x ∧ Cont y → Tidy r := fun hc =>
      mm_tidy (opMax hM.quad) args ((a2 f hf).cont hc.1) ((b2 g hg).cont hc.2) hr (hM.same ▸ w) ne
    refine ⟨fun hc => (key hc).cont, fun hc h => mm_pos (opMax hM.quad) args ((a2 f hf).cont hc.1) ((b2 g hg).cont hc.2) hr
      fun a ha b hb => ?_, fun hc => ⟨(key hc).hole, (key hc).holeRight⟩⟩
    rcases h with h | h
    · exact le_max_of_le_left (breaks_pos f1 ((a2 f hf).pos (cont_plain hc.1) h) ha)
    · exact le_max_of_le_right (breaks_pos g1 ((b2 g hg).pos (cont_plain hc.2) h) hb)

end Pacal.Identity
