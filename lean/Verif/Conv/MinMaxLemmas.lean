import Verif.Conv.MinMaxAtoms
import Verif.Conv.SumLemmas
import Verif.Law.PropsLaw
import Verif.Segments.PropsSplit

/-! Minimum and maximum: everything put together. -/

namespace Pacal
namespace Conv
open MeasureTheory Set

/-- an operation that selects one of its arguments; `≤` for the minimum, `≥` for the maximum -/
structure Selects {α : Type*} (op : α → α → α) (R : α → α → Prop) : Prop where
  total : ∀ x y, R x y ∨ R y x
  trans : ∀ x y z, R x y → R y z → R x z
  left : ∀ x y, R x y → op x y = x
  right : ∀ x y, R y x → op x y = y

theorem selects_min {α : Type*} [LinearOrder α] : Selects (min : α → α → α) (· ≤ ·) :=
  ⟨le_total, fun _ _ _ => le_trans, fun _ _ => min_eq_left, fun _ _ => min_eq_right⟩

theorem selects_max {α : Type*} [LinearOrder α] : Selects (max : α → α → α) (· ≥ ·) :=
  ⟨fun x y => le_total y x, fun _ _ _ h1 h2 => le_trans h2 h1, fun _ _ => max_eq_left, fun _ _ => max_eq_right⟩

section
variable {α : Type*} {op : α → α → α} {R : α → α → Prop} {bf bg : List α}

/-- an end of a piece of the split function -/
def EndOf (R : α → α → Prop) (bf bg : List α) (e : α) : Prop := e ∈ bf ∨ (e ∈ bg ∧ ∃ p ∈ bf, R e p)

theorem Selects.mem (h : Selects op R) {e₁ e₂ : α} (h1 : EndOf R bf bg e₁) (h2 : EndOf R bg bf e₂) :
    ∃ a ∈ bf, ∃ b ∈ bg, op e₁ e₂ = op a b := by
  rcases h1 with h1 | ⟨h1, p, hp, hp'⟩ <;> rcases h2 with h2 | ⟨h2, q, hq, hq'⟩
  · exact ⟨_, h1, _, h2, rfl⟩
  · rcases h.total e₁ e₂ with h3 | h3
    · exact ⟨_, h1, _, hq, by rw [h.left _ _ h3, h.left _ _ (h.trans _ _ _ h3 hq')]⟩
    · exact ⟨_, h2, _, hq, by rw [h.right _ _ h3, h.left _ _ hq']⟩
  · rcases h.total e₁ e₂ with h3 | h3
    · exact ⟨_, hp, _, h1, by rw [h.left _ _ h3, h.right _ _ hp']⟩
    · exact ⟨_, hp, _, h2, by rw [h.right _ _ h3, h.right _ _ (h.trans _ _ _ h3 hp')]⟩
  · rcases h.total e₁ e₂ with h3 | h3
    · exact ⟨_, hp, _, h1, by rw [h.left _ _ h3, h.right _ _ hp']⟩
    · exact ⟨_, h2, _, hq, by rw [h.right _ _ h3, h.left _ _ hq']⟩

theorem Selects.mem_or (h : Selects op R) {e : α} (he : e ∈ bf) :
    (∃ a ∈ bf, ∃ b ∈ bg, e = op a b) ∨ ∀ a ∈ bf, ∀ b ∈ bg, R (op a b) e := by
  by_cases hq : ∃ q ∈ bg, R e q
  · obtain ⟨q, hq, hq'⟩ := hq
    exact .inl ⟨e, he, q, hq, (h.left _ _ hq').symm⟩
  · push Not at hq
    refine .inr fun a ha b hb => ?_
    have hb' : R b e := (h.total b e).resolve_right (hq b hb)
    rcases h.total a b with h3 | h3
    · rw [h.left _ _ h3]; exact h.trans _ _ _ h3 hb'
    · rw [h.right _ _ h3]; exact hb'

theorem Selects.comm (h : Selects op R) (x y : α) : op x y = op y x := by
  rcases h.total x y with h3 | h3
  · rw [h.left _ _ h3, h.right _ _ h3]
  · rw [h.right _ _ h3, h.left _ _ h3]
end

/-! ### split functions -/

/-- the function split at the break points of the other one -/
noncomputable def cutAt (f g : PF ℝ) : PF ℝ := f.flatMap (PF.splitSeg (PF.finites (PF.getBreaks g)))

theorem getBreaks_sorted (l : PF ℝ) : (PF.getBreaks l).Pairwise (· < ·) := by
  rw [PF.getBreaks]
  split_ifs
  · exact List.Pairwise.nil
  · exact npUnique_sorted _

theorem cutAt_noconst {f g : PF ℝ} {a b c : ℝ} : Seg.const a b c ∉ cutAt f g := by
  have h1 : ∀ (pole : Pole) (a₀ b₀ : ℝ) (F : ℝ → ℝ) (ps : List ℝ) (x : ℝ), Seg.const a b c ∉ PF.splitFin pole a₀ b₀ F x ps := by
    intro pole a₀ b₀ F ps
    induction ps with
    | nil => intro x; simp [PF.splitFin]
    | cons p ps ih => intro x; simp [PF.splitFin, ih]
  have h2 : ∀ (F : ℝ → ℝ) (ps : List ℝ) (x : ℝ), Seg.const a b c ∉ PF.splitPInf F x ps := by
    intro F ps
    induction ps with
    | nil => intro x; simp [PF.splitPInf]
    | cons p ps ih => intro x; simp [PF.splitPInf, ih]
  intro h
  obtain ⟨s, -, hs⟩ := List.mem_flatMap.1 h
  cases s with
  | fin => exact h1 _ _ _ _ _ _ hs
  | const => exact h1 _ _ _ _ _ _ hs
  | minf b' F =>
    rw [PF.splitSeg] at hs
    split at hs
    · simp at hs
    · rcases List.mem_cons.1 hs with hs | hs
      · simp at hs
      · exact h1 _ _ _ _ _ _ hs
  | pinf => exact h2 _ _ _ hs
  | dirac => simp [PF.splitSeg] at hs

theorem cutAt_ends {eps : ℝ} {f g : PF ℝ} (hf : PF.WF eps f) {t : Seg ℝ} (ht : t ∈ cutAt f g) :
    ∃ p ∈ PF.getBreaks f, ∃ q ∈ PF.getBreaks f, p ≤ t.lo ∧ t.hi ≤ q ∧ t.lo ≤ t.hi ∧
      (t.lo ∈ PF.getBreaks f ∨ t.lo ∈ PF.getBreaks g) ∧ (t.hi ∈ PF.getBreaks f ∨ t.hi ∈ PF.getBreaks g) := by
  obtain ⟨s, hs, hts⟩ := List.mem_flatMap.1 ht
  have ok := splitSeg_ok eps (finites_sorted (getBreaks_sorted g)) (hf.seg s hs)
  refine ⟨s.lo, mem_getBreaks.2 ⟨s, hs, .inl rfl⟩, s.hi, mem_getBreaks.2 ⟨s, hs, .inr rfl⟩, ok.lo t hts, ok.hi t hts,
    t.lo_le_hi (ok.wf t hts), ?_, ?_⟩
  · rcases (ok.ends t hts).1 with h | ⟨p, hp, h⟩
    · exact .inl (mem_getBreaks.2 ⟨s, hs, .inl h⟩)
    · exact .inr (h ▸ Pacal.mem_finites.1 hp)
  · rcases (ok.ends t hts).2 with h | ⟨p, hp, h⟩
    · exact .inl (mem_getBreaks.2 ⟨s, hs, .inr h⟩)
    · exact .inr (h ▸ Pacal.mem_finites.1 hp)

theorem cutAt_dirac {eps : ℝ} {f g : PF ℝ} (hf : PF.WF eps f) {a m : ℝ} : Seg.dirac a m ∈ cutAt f g ↔ Seg.dirac a m ∈ f := by
  have h := split_diracs (points := PF.finites (PF.getBreaks g)) (finites_sorted (getBreaks_sorted g)) hf
  have : ∀ l : PF ℝ, Seg.dirac a m ∈ l ↔ Seg.dirac a m ∈ PF.diracs l := by
    intro l; simp [PF.diracs, Seg.isDirac]
  rw [this (cutAt f g), this f, ← h]; rfl

/-- the hypotheses on the arguments of a minimum or maximum -/
structure MMArgs (P : Par) (f g : PF ℝ) : Prop where
  eps : 0 ≤ P.eps
  fne : f ≠ []
  gne : g ≠ []
  fwf : PF.WF P.eps f
  gwf : PF.WF P.eps g
  apart : PF.AtomsApart P.eps f g

/-- the break points of the result -/
noncomputable def mmBreaks (opE : Ext ℝ → Ext ℝ → Ext ℝ) (f g : PF ℝ) : List (Ext ℝ) :=
  PF.npUnique ((PF.getBreaks f).flatMap fun a => (PF.getBreaks g).map fun b => opE a b)

theorem mem_mmBreaks {opE : Ext ℝ → Ext ℝ → Ext ℝ} {f g : PF ℝ} {c : Ext ℝ} :
    c ∈ mmBreaks opE f g ↔ ∃ a ∈ PF.getBreaks f, ∃ b ∈ PF.getBreaks g, c = opE a b := by
  rw [mmBreaks, mem_npUnique]
  simp only [List.mem_flatMap, List.mem_map]
  constructor
  · rintro ⟨a, ha, b, hb, e⟩; exact ⟨a, ha, b, hb, e.symm⟩
  · rintro ⟨a, ha, b, hb, e⟩; exact ⟨a, ha, b, hb, e.symm⟩

theorem exists_fin_break {l : PF ℝ} (hl : l ≠ []) : ∃ a : ℝ, Ext.fin a ∈ PF.getBreaks l := by
  cases l with
  | nil => exact absurd rfl hl
  | cons u r =>
    cases u with
    | fin p a b f => exact ⟨a, mem_getBreaks.2 ⟨_, List.mem_cons_self .., .inl rfl⟩⟩
    | const a b c => exact ⟨a, mem_getBreaks.2 ⟨_, List.mem_cons_self .., .inl rfl⟩⟩
    | minf b f => exact ⟨b, mem_getBreaks.2 ⟨_, List.mem_cons_self .., .inr rfl⟩⟩
    | pinf a f => exact ⟨a, mem_getBreaks.2 ⟨_, List.mem_cons_self .., .inl rfl⟩⟩
    | dirac a m => exact ⟨a, mem_getBreaks.2 ⟨_, List.mem_cons_self .., .inl rfl⟩⟩

theorem tail_eq {P : Par} (hP : ExactQ P.q P.qp) {f g : PF ℝ} (hd : PF.Dens (cutAt f g)) (a : ℝ) :
    (cutAt f g).integrate P.q P.qp a ⊤ = (PF.law (cutAt f g)).real (Ioi a) ∧
    (cutAt f g).integrate P.q P.qp ⊥ a = (PF.law (cutAt f g)).real (Iio a) := by
  constructor
  · rw [C58_integrate_partial hP hd (by trivial) (by simp) (fun _ _ _ h => absurd h cutAt_noconst), ivl_coe_top]
  · rw [C58_integrate_partial hP hd (by trivial) (by simp) (fun _ _ _ h => absurd h cutAt_noconst), ivl_bot_coe]

/-- what is needed to know about the operation -/
structure MMOp (P : Par) (opR : ℝ → ℝ → ℝ) (T : ℝ → Set ℝ) (opE : Ext ℝ → Ext ℝ → Ext ℝ) (R : Ext ℝ → Ext ℝ → Prop)
    (op : EReal → EReal → EReal) (pair : ℝ → Seg ℝ → Seg ℝ → Except PyErr ℝ) (tail : PF ℝ → ℝ → ℝ) : Prop where
  tl : Tail opR T
  sel : Selects opE R
  fin : ∀ a b : ℝ, ∃ c : ℝ, opE (.fin a) (.fin b) = .fin c
  ord : (∀ x y, R x y ↔ x ≤ y) ∨ ∀ x y, R x y ↔ y ≤ x
  test : ∀ si sj : Seg ℝ, si.WF → sj.WF → ∀ x : ℝ, Test op x si sj ↔ opE si.lo sj.lo < .fin x ∧ .fin x < opE si.hi sj.hi
  pair : ∀ si sj : Seg ℝ, si.WF → sj.WF → si.Dens → sj.Dens → PairSpec opR (Test op) pair (tk T) (tailAtoms T) si sj
  tail : ∀ f g : PF ℝ, PF.Dens (cutAt f g) → ∀ a, tail (cutAt f g) a = (PF.law (cutAt f g)).real (T a)

theorem opMin {P : Par} (hP : ExactQ P.q P.qp) :
    MMOp P min Ioi min (· ≤ ·) min (pairMin P) fun h a => h.integrate P.q P.qp a ⊤ where
  tl := tailMin
  sel := selects_min
  fin a b := by
    rcases le_total (Ext.fin a) (Ext.fin b) with h | h
    · exact ⟨a, min_eq_left h⟩
    · exact ⟨b, min_eq_right h⟩
  ord := .inl fun _ _ => Iff.rfl
  test si sj h1 h2 x := test_min h1 h2 x
  pair si sj h1 h2 h3 h4 := pairMin_spec hP h1 h2 h3 h4
  tail f g hd a := (tail_eq hP hd a).1

theorem opMax {P : Par} (hP : ExactQ P.q P.qp) :
    MMOp P max Iio max (· ≥ ·) max (pairMax P) fun h a => h.integrate P.q P.qp ⊥ a where
  tl := tailMax
  sel := selects_max
  fin a b := by
    rcases le_total (Ext.fin a) (Ext.fin b) with h | h
    · exact ⟨b, max_eq_right h⟩
    · exact ⟨a, max_eq_left h⟩
  ord := .inr fun _ _ => Iff.rfl
  test si sj h1 h2 x := test_max h1 h2 x
  pair si sj h1 h2 h3 h4 := pairMax_spec hP h1 h2 h3 h4
  tail f g hd a := (tail_eq hP hd a).2

section
variable {P : Par} {opR : ℝ → ℝ → ℝ} {T : ℝ → Set ℝ} {opE : Ext ℝ → Ext ℝ → Ext ℝ} {R : Ext ℝ → Ext ℝ → Prop}
  {op : EReal → EReal → EReal} {pair : ℝ → Seg ℝ → Seg ℝ → Except PyErr ℝ} {tail : PF ℝ → ℝ → ℝ} {f g : PF ℝ}

theorem MMOp.endOf (h : MMOp P opR T opE R op pair tail) {eps : ℝ} (hf : PF.WF eps f) {t : Seg ℝ} (ht : t ∈ cutAt f g) :
    EndOf R (PF.getBreaks f) (PF.getBreaks g) t.lo ∧ EndOf R (PF.getBreaks f) (PF.getBreaks g) t.hi := by
  obtain ⟨p, hp, q, hq, h1, h2, h3, h4, h5⟩ := cutAt_ends hf ht
  have key : ∀ e, p ≤ e → e ≤ q → ∃ r ∈ PF.getBreaks f, R e r := by
    intro e e1 e2
    rcases h.ord with h | h
    · exact ⟨q, hq, (h _ _).2 e2⟩
    · exact ⟨p, hp, (h _ _).2 e1⟩
  exact ⟨h4.imp_right fun h => ⟨h, key _ h1 (h3.trans h2)⟩, h5.imp_right fun h => ⟨h, key _ (h1.trans h3) h2⟩⟩

theorem MMOp.pair_ends (h : MMOp P opR T opE R op pair tail) {eps : ℝ} (hf : PF.WF eps f) (hg : PF.WF eps g) {si sj : Seg ℝ}
    (hi' : si ∈ cutAt f g) (hj : sj ∈ cutAt g f) : opE si.lo sj.lo ∈ mmBreaks opE f g ∧ opE si.hi sj.hi ∈ mmBreaks opE f g := by
  have e1 := h.endOf hf hi'
  have e2 := h.endOf hg hj
  exact ⟨mem_mmBreaks.2 (h.sel.mem e1.1 e2.1), mem_mmBreaks.2 (h.sel.mem e1.2 e2.2)⟩

/-- atoms are never strictly between consecutive break points -/
theorem MMOp.atom_out (h : MMOp P opR T opE R op pair tail) {a : ℝ} (ha : Ext.fin a ∈ PF.getBreaks f ∨ Ext.fin a ∈ PF.getBreaks g)
    (u v : Ext ℝ) (huv : [u, v] <:+: mmBreaks opE f g) : ¬ (u < .fin a ∧ .fin a < v) := by
  have hs : (mmBreaks opE f g).Pairwise (· < ·) := npUnique_sorted _
  have hu : u ∈ mmBreaks opE f g := huv.subset (by simp)
  have hv : v ∈ mmBreaks opE f g := huv.subset (by simp)
  have key : Ext.fin a ∈ mmBreaks opE f g ∨ ∀ c ∈ mmBreaks opE f g, R c (.fin a) := by
    rcases ha with ha | ha
    · rcases h.sel.mem_or (bg := PF.getBreaks g) ha with h1 | h1
      · exact .inl (mem_mmBreaks.2 h1)
      · refine .inr fun c hc => ?_
        obtain ⟨p, hp, q, hq, rfl⟩ := mem_mmBreaks.1 hc
        exact h1 p hp q hq
    · rcases h.sel.mem_or (bg := PF.getBreaks f) ha with ⟨p, hp, q, hq, e⟩ | h1
      · exact .inl (mem_mmBreaks.2 ⟨q, hq, p, hp, by rw [e, h.sel.comm]⟩)
      · refine .inr fun c hc => ?_
        obtain ⟨p, hp, q, hq, rfl⟩ := mem_mmBreaks.1 hc
        rw [h.sel.comm]
        exact h1 q hq p hp
  rcases key with key | key
  · exact not_inside hs key u v huv
  · rintro ⟨h1, h2⟩
    rcases h.ord with ho | ho
    · exact absurd h2 (not_lt.2 ((ho _ _).1 (key v hv)))
    · exact absurd h1 (not_lt.2 ((ho _ _).1 (key u hu)))

/-- the pairs do not change between break points -/
theorem MMOp.same (h : MMOp P opR T opE R op pair tail) {eps : ℝ} (hf : PF.WF eps f) (hg : PF.WF eps g) {a b : Ext ℝ}
    (hab : [a, b] <:+: mmBreaks opE f g) {x z : ℝ} (hx : x ∈ interE a b) (hz : z ∈ interE a b) {si sj : Seg ℝ}
    (hsi : si ∈ cutAt f g) (hsj : sj ∈ cutAt g f) : Test op z si sj ↔ Test op x si sj := by
  have hs : (mmBreaks opE f g).Pairwise (· < ·) := npUnique_sorted _
  obtain ⟨e1, e2⟩ := h.pair_ends hf hg hsi hsj
  have wi : si.WF := (split_wf (finites_sorted (getBreaks_sorted g)) hf).seg si hsi
  have wj : sj.WF := (split_wf (finites_sorted (getBreaks_sorted f)) hg).seg sj hsj
  rw [h.test si sj wi wj, h.test si sj wi wj]
  refine and_congr ?_ ?_
  · rcases infix_between hs hab e1 with h1 | h1
    · exact iff_of_true (h1.trans_lt hz.1) (h1.trans_lt hx.1)
    · exact iff_of_false (not_lt.2 (hz.2.le.trans h1)) (not_lt.2 (hx.2.le.trans h1))
  · rcases infix_between hs hab e2 with h1 | h1
    · exact iff_of_false (not_lt.2 (h1.trans hz.1.le)) (not_lt.2 (h1.trans hx.1.le))
    · exact iff_of_true (hz.2.trans_le h1) (hx.2.trans_le h1)

theorem runAt_mm : runAt (Test op) pair f g = fun z x => valueOf (sumLoop (pair x) (findSegList op f g z) 0) := by
  ext z x
  rw [runAt, findSegList]
  congr 3
  funext si sj
  exact decide_eq_decide.2 Iff.rfl

/-- the law and the density of the result, the ends of its pieces and the positions of its atoms -/
theorem mm_full (h : MMOp P opR T opE R op pair tail) (ha : MMArgs P f g) (hf : PF.Dens f) (hg : PF.Dens g) :
    ∃ r, convMM P opE op pair tail f g = some r ∧ PF.WF P.eps r ∧ PF.Dens r ∧ PF.law r = opLaw opR (PF.law f) (PF.law g) ∧
      (∀ᵐ x, r.val x = sum2 (cutAt f g) (cutAt g f) fun i j => tk T i j x) ∧
      (∀ s ∈ r, s.isDirac = false → s.lo ∈ mmBreaks opE f g ∧ s.hi ∈ mmBreaks opE f g) ∧
      ∀ a, PF.At r a ↔ PF.At f a ∨ PF.At g a := by
  obtain ⟨f', f1, f2, f3, f4⟩ := C04_law ha.eps _ (finites_sorted (getBreaks_sorted g)) f ha.fwf hf
  obtain ⟨g', g1, g2, g3, g4⟩ := C04_law ha.eps _ (finites_sorted (getBreaks_sorted f)) g ha.gwf hg
  have ef : f' = cutAt f g := by
    rw [splitByPoints_eq ha.eps (finites_sorted (getBreaks_sorted g)) ha.fwf] at f1
    exact (Option.some.inj f1).symm
  have eg : g' = cutAt g f := by
    rw [splitByPoints_eq ha.eps (finites_sorted (getBreaks_sorted f)) ha.gwf] at g1
    exact (Option.some.inj g1).symm
  subst ef eg
  have hs : (mmBreaks opE f g).Pairwise (· < ·) := npUnique_sorted _
  obtain ⟨p, hp⟩ := exists_fin_break ha.fne
  obtain ⟨q, hq⟩ := exists_fin_break ha.gne
  obtain ⟨c, hc⟩ := h.fin p q
  have hcm : Ext.fin c ∈ mmBreaks opE f g := mem_mmBreaks.2 ⟨_, hp, _, hq, hc.symm⟩
  have hn : ∀ a b, [a, b] <:+: mmBreaks opE f g → ¬ (a = .ninf ∧ b = .pinf) := by
    rintro a b hab ⟨rfl, rfl⟩
    rcases infix_between hs hab hcm with h1 | h1
    · exact not_le_ninf _ h1
    · exact not_pinf_le _ h1
  obtain ⟨d, d1, d2, d3, d4, d5⟩ := probDiracs_spec ha.eps f2 g2 f3 g3 (T := T) (tail := tail)
    (by
      intro a m a' m' h1 h2
      exact ha.apart a m a' m' ((cutAt_dirac ha.fwf).1 h1) ((cutAt_dirac ha.gwf).1 h2))
    (fun a m _ => h.tail g f g3 a) (fun a m _ => h.tail f g f3 a)
  obtain ⟨r, r1, r2, r3, r4, -, r6, r7, r8⟩ := run_law h.tl.meas ha.eps f3 g3
    (fun si hsi sj hsj => h.pair si sj (f2.seg si hsi) (g2.seg sj hsj) (f3 si hsi) (g3 sj hsj))
    hs hn
    (fun a b hab x hx si hsi sj hsj => h.same ha.fwf ha.gwf hab hx (mid_mem (infix_lt hs hab) (hn a b hab)) hsi hsj)
    (by
      intro x si hsi sj hsj ht
      obtain ⟨e1, e2⟩ := h.pair_ends ha.fwf ha.gwf hsi hsj
      rw [h.test si sj (f2.seg si hsi) (g2.seg sj hsj)] at ht
      exact ⟨⟨_, e1, ht.1⟩, _, e2, ht.2⟩)
    (D := d) (by
      intro s hsd
      obtain ⟨a, m, rfl, hm, hm'⟩ := d3 s hsd
      refine ⟨a, m, rfl, hm, h.atom_out ?_⟩
      rcases hm' with ⟨m', h1⟩ | ⟨m', h1⟩
      · exact .inl (mem_getBreaks.2 ⟨_, (cutAt_dirac ha.fwf).1 h1, .inl rfl⟩)
      · exact .inr (mem_getBreaks.2 ⟨_, (cutAt_dirac ha.gwf).1 h1, .inl rfl⟩))
    (d2.sorted.imp fun h => .inl (.inl h)) d4 (fun _ _ => .none)
  rw [runAt_mm] at r1 r7 r8
  have hin : ∀ t ∈ r, t ∈ pieces (fun _ _ => .none) (fun z x => valueOf (sumLoop (pair x) (findSegList op (cutAt f g) (cutAt g f) z) 0))
      (mmBreaks opE f g) ∨ ∃ a m m', t = .dirac a m ∧ .dirac a m' ∈ d := by
    obtain ⟨r', e1, -, -, -, e5⟩ := addAll_compat ha.eps _ [] ⟨by simp, List.Pairwise.nil⟩ r8 r7 (by simp)
    obtain rfl : r' = r := Option.some.inj (e1.symm.trans r1)
    intro t ht
    rcases e5 t ht with h1 | h1 | ⟨a, m, m', rfl, h1 | h1⟩
    · simp at h1
    · rcases List.mem_append.1 h1 with h1 | h1
      · exact .inl h1
      · obtain ⟨a, m, rfl, -⟩ := d3 t h1
        exact .inr ⟨a, m, m, rfl, h1⟩
    · simp at h1
    · rcases List.mem_append.1 h1 with h1 | h1
      · exact absurd (pieces_ends hs hn _ h1).1 (by simp [Seg.isDirac])
      · exact .inr ⟨a, m, m', rfl, h1⟩
  refine ⟨r, ?_, r2, r3, by rw [r4, f4, g4], r6, ?_, ?_⟩
  rotate_left
  · intro s hsr hsd
    rcases hin s hsr with h1 | ⟨a, m, m', rfl, -⟩
    · exact (pieces_ends hs hn _ h1).2
    · simp [Seg.isDirac] at hsd
  · intro a
    constructor
    · rintro ⟨m, hm⟩
      rcases hin _ hm with h1 | ⟨a', m', m'', e, h1⟩
      · exact absurd (pieces_ends hs hn _ h1).1 (by simp [Seg.isDirac])
      · cases e
        obtain ⟨b, n, e, -, hb⟩ := d3 _ h1
        cases e
        exact hb.imp (fun ⟨k, hk⟩ => ⟨k, (cutAt_dirac ha.fwf).1 hk⟩) (fun ⟨k, hk⟩ => ⟨k, (cutAt_dirac ha.gwf).1 hk⟩)
    · intro hb
      have hd' := d5 a (hb.imp (fun ⟨k, hk⟩ => ⟨k, (cutAt_dirac ha.fwf).2 hk⟩) (fun ⟨k, hk⟩ => ⟨k, (cutAt_dirac ha.gwf).2 hk⟩))
      obtain ⟨k, hk⟩ := hd'
      exact addAll_at ha.eps _ _ _ ⟨by simp, List.Pairwise.nil⟩ r8 r7 (by simp) r1 a (.inr ⟨k, List.mem_append_right _ hk⟩)
  rw [addAll_append] at r1
  obtain ⟨F, hF, r1⟩ := Option.bind_eq_some_iff.1 r1
  have hne : mmBreaks opE f g ≠ [] := List.ne_nil_of_mem hcm
  rw [List.pairwise_append] at r7
  obtain ⟨F', hF', w1, -, -, w5⟩ := addAll_compat ha.eps _ [] ⟨by simp, List.Pairwise.nil⟩
    (fun s hs => r8 s (List.mem_append_left _ hs)) r7.1 (by simp)
  obtain rfl : F' = F := Option.some.inj (hF'.symm.trans hF)
  rw [convMM]
  dsimp only
  rw [f1, Option.bind_some, g1, Option.bind_some, show PF.npUnique ((PF.getBreaks f).flatMap fun a => (PF.getBreaks g).map fun b => opE a b) =
    mmBreaks opE f g from rfl, if_neg hne, hF, Option.bind_some, d1, Option.bind_some, addDiracs_eq ha.eps w1, r1]
  · intro s hs
    obtain ⟨a, m, e, -⟩ := d3 s hs
    exact ⟨a, m, e⟩
  · exact d2.sorted.imp fun h => .inl (.inl h)
  · intro s hsd t ht
    rcases w5 t ht with h1 | h1 | ⟨a, m, m', rfl, h1 | h1⟩
    · simp at h1
    · exact (r7.2.2 t h1 s hsd).symm
    · simp at h1
    · exact compat_dirac (r7.2.2 _ h1 s hsd).symm

/-- the law and the density of the result -/
theorem mm_spec (h : MMOp P opR T opE R op pair tail) (ha : MMArgs P f g) (hf : PF.Dens f) (hg : PF.Dens g) :
    ∃ r, convMM P opE op pair tail f g = some r ∧ PF.WF P.eps r ∧ PF.Dens r ∧ PF.law r = opLaw opR (PF.law f) (PF.law g) ∧
      (∀ᵐ x, r.val x = sum2 (cutAt f g) (cutAt g f) fun i j => tk T i j x) := by
  obtain ⟨r, r1, r2, r3, r4, r5, -⟩ := mm_full h ha hf hg
  exact ⟨r, r1, r2, r3, r4, r5⟩

/-! ### the density -/

theorem sum_den (l : PF ℝ) : ∀ᵐ x, (l.map fun s => den s x).sum = l.val x := by
  induction l with
  | nil => exact .of_forall fun x => rfl
  | cons s l ih =>
    have : ∀ᵐ x, den s x = s.val x := by
      rcases isDirac_cases s with h | ⟨a, m, rfl⟩
      · filter_upwards [Seg.val_ae h] with x hx using hx.symm
      · exact .of_forall fun x => by rw [den_dirac, dirac_val]
    filter_upwards [this, ih] with x h1 h2
    rw [List.map_cons, List.sum_cons, h1, h2]
    simp [PF.val]

theorem sum2_half {l l' : PF ℝ} (hd : PF.Dens l) (c : Seg ℝ → ℝ) (A : Set ℝ) :
    sum2 l l' (fun i j => c j * (i.law).real A) = (l'.map c).sum * (PF.law l).real A := by
  rw [PF.law_real_eq_sum hd, sum2_swap]
  unfold sum2
  simp only [List.sum_map_mul_left, List.sum_map_mul_right]

theorem sum2_tk {f' g' : PF ℝ} (hf : PF.Dens f') (hg : PF.Dens g') (T : ℝ → Set ℝ) :
    ∀ᵐ x, (sum2 f' g' fun i j => tk T i j x) = g'.val x * (PF.law f').real (T x) + f'.val x * (PF.law g').real (T x) := by
  filter_upwards [sum_den f', sum_den g'] with x h1 h2
  unfold tk
  rw [sum2_add, sum2_half hf (fun j => den j x), h2]
  congr 1
  rw [sum2_swap, sum2_half hg (fun j => den j x), h1]

end

/-! ### the split arguments -/

theorem cutAt_wf {eps : ℝ} {f g : PF ℝ} (hf : PF.WF eps f) {s : Seg ℝ} (hs : s ∈ cutAt f g) : s.WF :=
  (split_wf (finites_sorted (getBreaks_sorted g)) hf).seg s hs

theorem cutAt_law {eps : ℝ} (he : 0 ≤ eps) {f g : PF ℝ} (hf : PF.WF eps f) (hd : PF.Dens f) :
    PF.Dens (cutAt f g) ∧ PF.law (cutAt f g) = PF.law f ∧ ∀ x, PF.val (cutAt f g) x = f.val x := by
  obtain ⟨f', f1, f2, f3, f4⟩ := C04_law he _ (finites_sorted (getBreaks_sorted g)) f hf hd
  obtain rfl : f' = cutAt f g := by
    rw [splitByPoints_eq he (finites_sorted (getBreaks_sorted g)) hf] at f1
    exact (Option.some.inj f1).symm
  exact ⟨f3, f4, fun x => (split_val (finites_sorted (getBreaks_sorted g)) hf x).1⟩

/-- the probabilities of single values -/
theorem opLaw_point {op : ℝ → ℝ → ℝ} {T : ℝ → Set ℝ} (h : Tail op T) {f g : PF ℝ} (hf : PF.Dens f) (hg : PF.Dens g) (x : ℝ) :
    (opLaw op (PF.law f) (PF.law g)).real {x} =
      f.massAt x * (PF.law g).real (T x) + g.massAt x * (PF.law f).real (T x) + f.massAt x * g.massAt x := by
  have := PF.law_finite hf
  have := PF.law_finite hg
  have e : ∀ (μ : Measure ℝ) (u : ℝ → ENNReal), (μ.withDensity u) {x} = u x * μ {x} := by
    intro μ u
    rw [withDensity_apply _ (measurableSet_singleton x), Measure.restrict_singleton, lintegral_smul_measure, lintegral_dirac,
      smul_eq_mul, mul_comm]
  rw [Measure.real, opLaw_tail h, Measure.add_apply, Measure.add_apply, e, e, e, ENNReal.toReal_add, ENNReal.toReal_add,
    ENNReal.toReal_mul, ENNReal.toReal_mul, ENNReal.toReal_mul, ← law_singleton hf, ← law_singleton hg]
  · simp only [Measure.real]; ring
  all_goals finiteness

/-! ### pairs and points -/

theorem points_not {s : Seg ℝ} (hs : s.isDirac = false) : s.points = s.inner := by
  cases s <;> first | rfl | simp [Seg.isDirac] at hs

/-- a point of a piece lies between its ends -/
theorem points_between {s : Seg ℝ} {x : ℝ} (h : x ∈ s.points) : lo s ≤ x ∧ (x : EReal) ≤ hi s := by
  rcases isDirac_cases s with hs | ⟨a, m, rfl⟩
  · rw [points_not hs, mem_inner] at h
    exact ⟨h.1.le, h.2.le⟩
  · obtain rfl : x = a := h
    exact ⟨le_rfl, le_rfl⟩

theorem points_above {s : Seg ℝ} (hw : s.WF) {x : ℝ} (h : (x : EReal) < hi s) : ∃ t ∈ s.points, x < t := by
  rcases isDirac_cases s with hs | ⟨a, m, rfl⟩
  · obtain ⟨t, h1, h2⟩ := EReal.lt_iff_exists_real_btwn.1 (max_lt (lo_lt_hi hs hw) h : max (lo s) x < hi s)
    refine ⟨t, ?_, EReal.coe_lt_coe_iff.1 ((le_max_right _ _).trans_lt h1)⟩
    rw [points_not hs, mem_inner]
    exact ⟨(le_max_left _ _).trans_lt h1, h2⟩
  · exact ⟨a, rfl, EReal.coe_lt_coe_iff.1 h⟩

theorem points_below {s : Seg ℝ} (hw : s.WF) {x : ℝ} (h : lo s < (x : EReal)) : ∃ t ∈ s.points, t < x := by
  rcases isDirac_cases s with hs | ⟨a, m, rfl⟩
  · obtain ⟨t, h1, h2⟩ := EReal.lt_iff_exists_real_btwn.1 (lt_min (lo_lt_hi hs hw) h : lo s < min (hi s) x)
    refine ⟨t, ?_, EReal.coe_lt_coe_iff.1 (h2.trans_le (min_le_right _ _))⟩
    rw [points_not hs, mem_inner]
    exact ⟨h1, h2.trans_le (min_le_left _ _)⟩
  · exact ⟨a, rfl, EReal.coe_lt_coe_iff.1 h⟩

theorem inner_points {s : Seg ℝ} {x : ℝ} (h1 : lo s < x) (h2 : (x : EReal) < hi s) : x ∈ s.points := by
  rcases isDirac_cases s with hs | ⟨a, m, rfl⟩
  · rw [points_not hs, mem_inner]; exact ⟨h1, h2⟩
  · exact absurd (h1.trans h2) (lt_irrefl _)

theorem points_inner {s : Seg ℝ} {x : ℝ} (h : x ∈ s.points) (hx : ∀ a m, s = .dirac a m → x ≠ a) : lo s < x ∧ (x : EReal) < hi s := by
  rcases isDirac_cases s with hs | ⟨a, m, rfl⟩
  · rwa [points_not hs, mem_inner] at h
  · exact absurd h (hx a m rfl)

theorem test_min_points {si sj : Seg ℝ} (hwi : si.WF) (hwj : sj.WF) {x : ℝ} (hi' : ∀ a m, si = .dirac a m → x ≠ a)
    (hj : ∀ a m, sj = .dirac a m → x ≠ a) : Test min x si sj ↔ ∃ s ∈ si.points, ∃ t ∈ sj.points, min s t = x := by
  rw [test_min hwi hwj]
  constructor
  · rintro ⟨h1, h2⟩
    obtain ⟨h3, h4⟩ := lt_min_iff.1 h2
    rcases min_lt_iff.1 h1 with h5 | h5
    · obtain ⟨t, ht, hxt⟩ := points_above hwj h4
      exact ⟨x, inner_points h5 h3, t, ht, min_eq_left hxt.le⟩
    · obtain ⟨t, ht, hxt⟩ := points_above hwi h3
      exact ⟨t, ht, x, inner_points h5 h4, min_eq_right hxt.le⟩
  · rintro ⟨s, hs, t, ht, e⟩
    have key : ∀ {si sj : Seg ℝ} {t : ℝ}, x ∈ si.points → t ∈ sj.points → (∀ a m, si = .dirac a m → x ≠ a) →
        (∀ a m, sj = .dirac a m → x ≠ a) → x ≤ t → min (lo si) (lo sj) < x ∧ (x : EReal) < min (hi si) (hi sj) := by
      intro si sj t h1 h2 h3 h4 h5
      obtain ⟨i1, i2⟩ := points_inner h1 h3
      refine ⟨min_lt_of_left_lt i1, lt_min i2 ?_⟩
      rcases h5.lt_or_eq with h5 | rfl
      · exact lt_of_lt_of_le (EReal.coe_lt_coe_iff.2 h5) (points_between h2).2
      · exact (points_inner h2 h4).2
    rcases le_total s t with h | h
    · rw [min_eq_left h] at e; subst e
      exact key hs ht hi' hj h
    · rw [min_eq_right h] at e; subst e
      rw [min_comm, min_comm (hi si)]
      exact key ht hs hj hi' h

theorem test_max_points {si sj : Seg ℝ} (hwi : si.WF) (hwj : sj.WF) {x : ℝ} (hi' : ∀ a m, si = .dirac a m → x ≠ a)
    (hj : ∀ a m, sj = .dirac a m → x ≠ a) : Test max x si sj ↔ ∃ s ∈ si.points, ∃ t ∈ sj.points, max s t = x := by
  rw [test_max hwi hwj]
  constructor
  · rintro ⟨h1, h2⟩
    obtain ⟨h3, h4⟩ := max_lt_iff.1 h1
    rcases lt_max_iff.1 h2 with h5 | h5
    · obtain ⟨t, ht, hxt⟩ := points_below hwj h4
      exact ⟨x, inner_points h3 h5, t, ht, max_eq_left hxt.le⟩
    · obtain ⟨t, ht, hxt⟩ := points_below hwi h3
      exact ⟨t, ht, x, inner_points h4 h5, max_eq_right hxt.le⟩
  · rintro ⟨s, hs, t, ht, e⟩
    have key : ∀ {si sj : Seg ℝ} {t : ℝ}, x ∈ si.points → t ∈ sj.points → (∀ a m, si = .dirac a m → x ≠ a) →
        (∀ a m, sj = .dirac a m → x ≠ a) → t ≤ x → max (lo si) (lo sj) < x ∧ (x : EReal) < max (hi si) (hi sj) := by
      intro si sj t h1 h2 h3 h4 h5
      obtain ⟨i1, i2⟩ := points_inner h1 h3
      refine ⟨max_lt i1 ?_, lt_max_of_lt_left i2⟩
      rcases h5.lt_or_eq with h5 | rfl
      · exact lt_of_le_of_lt (points_between h2).1 (EReal.coe_lt_coe_iff.2 h5)
      · exact (points_inner h2 h4).1
    rcases le_total s t with h | h
    · rw [max_eq_right h] at e; subst e
      rw [max_comm, max_comm (hi si)]
      exact key ht hs hj hi' h
    · rw [max_eq_left h] at e; subst e
      exact key hs ht hi' hj h

end Conv
end Pacal
