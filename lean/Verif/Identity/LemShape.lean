import Verif.Identity.LemFold
import Verif.Identity.LemPos

/-!
Lemmas for `Verif.Identity.LemExact`: atoms, gaps and signs of the results of the operations.
-/

namespace Pacal.Identity
open MeasureTheory ProbabilityTheory Standard Set Conv

/-! ### functions of one variable -/

theorem stepOK_mono {p q : Prop} (h : p → q) {s : Step} : StepOK p s → StepOK q s := by
  cases s <;> simp only [StepOK] <;> tauto

theorem shift_wf {eps : ℝ} (he : 0 ≤ eps) {l r : PF ℝ} {a b : ℝ} (hb : b ≠ 0) (hw : PF.WF eps l) (hd : PF.Dens l) (hc : ContPF l)
    (h : shiftedScaled eps l a b = some r) : PF.WF eps r ∧ PF.Dens r ∧ ContPF r := by
  obtain ⟨r', e, w, d, -⟩ := C18_law_continuous he hb a hw hd hc
  obtain rfl : r' = r := Option.some.inj (e.symm.trans h)
  exact ⟨w, d, shift_cont he hb hw hd hc h⟩

theorem step_shape (M : Machine) (he : 0 ≤ M.env.eps) {l r : PF ℝ} (hw : PF.WF M.env.eps l) (hd : PF.Dens l) (hc : ContPF l)
    (s : Step) (hs : StepOK (PosPF l) s) (hr : s.run M l = some r) :
    ContPF r ∧ (StepNonneg (PosPF l) s → PosPF r) ∧ (StepGapless (PosPF l) (Tidy l) s → Tidy r) := by
  obtain ⟨r', e, wr, -⟩ := step_sound M he hw hd hc s hs
  obtain rfl : r' = r := Option.some.inj (e.symm.trans hr)
  clear e
  have hinv : ∀ {r}, PF.copyProbInverse M.env.eps l false = some r → ContPF r := by
    intro r hr
    obtain ⟨r', e, -, -, -, h⟩ := inv_all (pole := false) he hw hd hc
    obtain rfl : r = r' := by rw [e] at hr; exact (Option.some.inj hr).symm
    exact h
  cases s with
  | shiftScale a b => exact ⟨shift_cont he hs hw hd hc hr, fun h => shift_pos h.1 h.2.1 hc h.2.2 hr, fun h => shift_tidy hs h hr⟩
  | abs =>
    obtain ⟨h1, h2, h3⟩ := abs_shape he hw hd hc hr wr
    exact ⟨h1, fun _ => h2, h3⟩
  | square =>
    obtain ⟨h1, h2, h3⟩ := square_shape he hw hd hc hr wr
    exact ⟨h1, fun _ => h2, h3⟩
  | inv =>
    exact ⟨hinv hr, fun h => (inv_shape he hw hc h hr).2.1, fun h => (inv_shape he hw hc h.2 hr).2.2 wr h.1⟩
  | exp =>
    obtain ⟨h1, h2, h3⟩ := exp_shape he hw hc hr
    exact ⟨h1, fun _ => h2, h3 wr⟩
  | log =>
    rw [Step.run, isNonneg_of hc hs] at hr
    obtain ⟨h1, h3⟩ := log_shape he hw hc hs hr
    exact ⟨h1, fun h => h.elim, h3 wr⟩
  | atan =>
    obtain ⟨h1, h2, h3⟩ := atan_shape he hw hc hr
    exact ⟨h1, h2, h3 wr⟩
  | pow d =>
    obtain ⟨hd0, h⟩ := hs
    rw [Step.run, powDistr, if_neg hd0] at hr
    by_cases g1 : d = 1
    · rw [if_pos g1] at hr
      cases hr
      exact ⟨hc, fun h => h.resolve_left (by rw [g1]; norm_num), fun h => h.1⟩
    by_cases g2 : d = -1
    · rw [if_neg g1, if_pos g2] at hr
      obtain ⟨r₁, e1⟩ : ∃ r₁, PF.copyProbInverse M.env.eps l false = some r₁ := by
        cases e : PF.copyProbInverse M.env.eps l false with
        | none => rw [e] at hr; simp [powPF] at hr
        | some r₁ => exact ⟨r₁, rfl⟩
      rw [e1] at hr
      cases hr
      exact ⟨hinv e1, fun h => (inv_shape he hw hc (h.resolve_left (by rw [g2]; norm_num)) e1).2.1,
        fun h => (inv_shape he hw hc (h.2 g2) e1).2.2 wr h.1⟩
    by_cases g3 : d = 2
    · rw [if_neg g1, if_neg g2, if_pos g3] at hr
      obtain ⟨r₁, e1⟩ : ∃ r₁, PF.copySquareComposition M.env.eps l = some r₁ := by
        cases e : PF.copySquareComposition M.env.eps l with
        | none => rw [e] at hr; simp [powPF] at hr
        | some r₁ => exact ⟨r₁, rfl⟩
      rw [e1] at hr
      cases hr
      obtain ⟨h1, h2, h3⟩ := square_shape he hw hd hc e1 wr
      exact ⟨h1, fun _ => h2, fun h => h3 h.1⟩
    have hp : PosPF l := by tauto
    obtain ⟨a, b, r₁, e1, e2, e3, -⟩ := pow_cont (mass := M.mass) he hw hd hc hp hd0
    rw [if_neg g1, if_neg g2, if_neg g3, isNonneg_of hc hp, e1, Option.bind_some, e2, Option.bind_some, e3] at hr
    cases hr
    obtain ⟨a', e1', w1, d1, -⟩ := log_all (mass := M.mass) he hw hd hp (fun a m h => absurd h (not_dirac hc a m)) (.of_continuous hc)
    obtain rfl : a = a' := by rw [e1] at e1'; exact Option.some.inj e1'
    obtain ⟨c1, t1⟩ := log_shape he hw hc hp e1
    obtain ⟨w2, d2, c2⟩ := shift_wf he hd0 w1 d1 c1 e2
    obtain ⟨c3, p3, t3⟩ := exp_shape he w2 c2 e3
    exact ⟨c3, fun _ => p3, fun h => t3 wr (shift_tidy hd0 (t1 w1 h.1) e2)⟩

/-! ### signs of results of the arithmetic -/

theorem cuts_lo {pole : ℝ → ℝ → Pole} {F : ℝ → ℝ → ℝ} : ∀ (brks : List (Ext ℝ)), brks.Pairwise (· < ·) →
    (∀ a b, [a, b] <:+: brks → ¬ (a = .ninf ∧ b = .pinf)) → ∀ s ∈ cuts pole F brks, s.lo ∈ brks
  | [], _, _ => by simp [cuts]
  | [a], _, _ => by simp [cuts]
  | a :: b :: r, hs, hn => by
    obtain ⟨s, e1, e2, e3, e4, -, -⟩ := pieceOf_spec (pole := pole) (F := F) ((List.pairwise_cons.1 hs).1 b (by simp))
      (hn a b ⟨[], r, rfl⟩)
    have ih := cuts_lo (pole := pole) (F := F) (b :: r) (List.pairwise_cons.1 hs).2
      (fun u v h => hn u v (h.trans (List.infix_cons (List.infix_refl _))))
    simp only [cuts, e1, Option.toList_some, List.singleton_append]
    intro t ht
    rcases List.mem_cons.1 ht with rfl | ht
    · rw [e2]; simp
    · exact List.mem_cons_of_mem _ (ih t ht)

theorem pos_pieces {eps : ℝ} {pole : ℝ → ℝ → Pole} {F : ℝ → ℝ → ℝ} {brks : List (Ext ℝ)} {r : PF ℝ} (hs : brks.Pairwise (· < ·))
    (hn : ∀ a b, [a, b] <:+: brks → ¬ (a = .ninf ∧ b = .pinf)) (h : PF.addAll eps [] (Conv.pieces pole F brks) = some r)
    (h0 : ∀ x ∈ brks, .fin 0 ≤ x) : PosPF r := by
  obtain ⟨h1, -, -⟩ := cuts_linked (pole := pole) (F := F) brks hs hn
  have hp := pieces_perm (pole := pole) (F := F) brks
  have hp' : r.Perm (cuts pole F brks) := by
    have := addAll_perm _ [] r (fun s hs => h1 s (hp.mem_iff.1 hs)) h
    rw [List.append_nil] at this
    exact this.trans hp
  exact fun s hs' => h0 _ (cuts_lo brks hs hn s (hp'.mem_iff.1 hs'))

theorem ends_pos {eps : ℝ} {l : PF ℝ} (hw : PF.WF eps l) (hp : PosPF l) {s : Seg ℝ} (hs : s ∈ l) : .fin 0 ≤ s.hi :=
  (hp s hs).trans (Seg.lo_le_hi (hw.seg s hs))

theorem breaks_pos {eps : ℝ} {l : PF ℝ} (hw : PF.WF eps l) (hp : PosPF l) {x : Ext ℝ} (hx : x ∈ PF.getBreaks l) : .fin 0 ≤ x := by
  obtain ⟨s, hs, rfl | rfl⟩ := mem_getBreaks.1 hx
  · exact hp s hs
  · exact ends_pos hw hp hs

theorem breaksExt_pos {eps : ℝ} {l : PF ℝ} (hw : PF.WF eps l) (hp : PosPF l) {x : Ext ℝ} (hx : x ∈ breaksExt l) : .fin 0 ≤ x := by
  cases l with
  | nil => simp [breaksExt] at hx
  | cons u r =>
    rcases List.mem_cons.1 hx with rfl | hx
    · exact hp u (by simp)
    · obtain ⟨s, hs, rfl⟩ := List.mem_map.1 hx
      exact ends_pos hw hp hs

theorem conv_pos {P : Par} {f g : PF ℝ} (h : SumArgs P f g) (hf : ContPF f ∨ ContPF g) (pf : PosPF f) (pg : PosPF g) {pole : ℝ → ℝ → Pole} {r : PF ℝ}
    (hr : conv P pole f g = some r) : PosPF r := by
  rw [conv, Option.bind_eq_some_iff] at hr
  obtain ⟨fg, h1, h2⟩ := hr
  rw [convdiracs_nil hf, Option.bind_some] at h2
  simp only [PF.diracs, List.filter_nil, PF.addAll, Option.some.injEq] at h2
  subst h2
  refine pos_pieces h.breaks.1 h.no_both h1 fun x hx => ?_
  have hx := (h.breaks.2 x).1 hx
  rcases ext_trich x with rfl | ⟨a, rfl⟩ | rfl
  · rcases (mem_sumBreaks_ninf h.fne).1 hx with h3 | h3
    · exact breaksExt_pos h.fwf pf h3
    · exact breaksExt_pos h.gwf pg h3
  · obtain ⟨u, v, hu, hv, rfl⟩ := mem_sumBreaks_fin.1 hx
    exact extFin_le.2 (add_nonneg (extFin_le.1 (breaksExt_pos h.fwf pf hu)) (extFin_le.1 (breaksExt_pos h.gwf pg hv)))
  · exact ext_le_pinf _

theorem split_pos {eps : ℝ} (he : 0 ≤ eps) {ps : List ℝ} (hp : ps.Pairwise (· < ·)) {l r : PF ℝ} (hw : PF.WF eps l)
    (h : PF.splitByPoints eps l ps = some r) (h0 : PosPF l) : PosPF r ∧ PF.WF eps r := by
  obtain ⟨w, i, -⟩ := split_within he hp hw h
  refine ⟨fun s hs => ?_, w⟩
  obtain ⟨t, ht, hle⟩ := i s hs
  exact (h0 t ht).trans hle

theorem prod_pos {P : Par} {f g : PF ℝ} (h : ProdArgs P f g) (hf : ContPF f) (hg : ContPF g) (pf : PosPF f) (pg : PosPF g)
    {pole : ℝ → ℝ → Pole} {r : PF ℝ} (hr : convprod P pole f g = some r) : PosPF r := by
  rw [convprod, cut3_eq h.eps h.fwf, Option.bind_some, cut3_eq h.eps h.gwf, Option.bind_some] at hr
  split_ifs at hr
  rw [Option.bind_eq_some_iff] at hr
  obtain ⟨fg, h1, h2⟩ := hr
  rw [convdiracs_nil (.inl (cut3_cont h.fwf hf)), Option.bind_some] at h2
  simp only [PF.diracs, List.filter_nil, PF.addAll, Option.bind_some] at h2
  rw [Option.bind_eq_some_iff] at h2
  obtain ⟨s0, -, h2⟩ := h2
  have : zeroAtom P (cut3 f) (cut3 g) = none := by
    unfold zeroAtom
    rw [zeroTimes_zero (cut3_cont h.fwf hf), zeroTimes_zero (cut3_cont h.gwf hg)]
    simp
  rw [this, addZero, Option.some.injEq] at h2
  subst h2
  refine pos_pieces h.breaks.1 h.no_both h1 fun x hx => ?_
  obtain ⟨a, ha, b, hb, e⟩ := mem_prodTable.1 ((h.breaks.2 x).1 hx)
  have hps : [(-1 : ℝ), 0, 1].Pairwise (· < ·) := by norm_num
  obtain ⟨p1, w1⟩ := split_pos h.eps hps h.fwf (cut3_eq h.eps h.fwf) pf
  obtain ⟨p2, w2⟩ := split_pos h.eps hps h.gwf (cut3_eq h.eps h.gwf) pg
  have a0 : (0 : EReal) ≤ a := breaks_pos w1 p1 ha
  have b0 : (0 : EReal) ≤ b := breaks_pos w2 p2 hb
  unfold fmul at e
  split_ifs at e
  cases e
  exact mul_nonneg a0 b0

theorem mm_pos {P : Par} {opR : ℝ → ℝ → ℝ} {T : ℝ → Set ℝ} {opE : Ext ℝ → Ext ℝ → Ext ℝ} {R : Ext ℝ → Ext ℝ → Prop}
    {op : EReal → EReal → EReal} {pair : ℝ → Seg ℝ → Seg ℝ → Except PyErr ℝ} {tail : PF ℝ → ℝ → ℝ} {f g : PF ℝ}
    (h : MMOp P opR T opE R op pair tail) (ha : MMArgs P f g) (hf : ContPF f) (hg : ContPF g) {r : PF ℝ}
    (hr : convMM P opE op pair tail f g = some r)
    (h0 : ∀ a ∈ PF.getBreaks f, ∀ b ∈ PF.getBreaks g, (.fin 0 : Ext ℝ) ≤ opE a b) : PosPF r := by
  have hs : (mmBreaks opE f g).Pairwise (· < ·) := npUnique_sorted _
  obtain ⟨p, hp⟩ := exists_fin_break ha.fne
  obtain ⟨q, hq⟩ := exists_fin_break ha.gne
  obtain ⟨c, hc⟩ := h.fin p q
  have hcm : Ext.fin c ∈ mmBreaks opE f g := mem_mmBreaks.2 ⟨_, hp, _, hq, hc.symm⟩
  have hn : ∀ a b, [a, b] <:+: mmBreaks opE f g → ¬ (a = .ninf ∧ b = .pinf) := by
    rintro a b hab ⟨rfl, rfl⟩
    rcases infix_between hs hab hcm with h1 | h1
    · exact not_le_ninf _ h1
    · exact not_pinf_le _ h1
  rw [convMM] at hr
  dsimp only at hr
  rw [splitByPoints_eq ha.eps (finites_sorted (getBreaks_sorted g)) ha.fwf, Option.bind_some,
    splitByPoints_eq ha.eps (finites_sorted (getBreaks_sorted f)) ha.gwf, Option.bind_some] at hr
  split_ifs at hr
  rw [Option.bind_eq_some_iff] at hr
  obtain ⟨fg, h1, h2⟩ := hr
  have e1 : ContPF (f.flatMap (PF.splitSeg (PF.finites (PF.getBreaks g)))) := cutAt_cont (g := g) ha.fwf hf
  have e2 : ContPF (g.flatMap (PF.splitSeg (PF.finites (PF.getBreaks f)))) := cutAt_cont (g := f) ha.gwf hg
  rw [probDiracs_nil e1 e2, Option.bind_some, addDiracs, Option.some.injEq] at h2
  subst h2
  refine pos_pieces hs hn h1 fun x hx => ?_
  obtain ⟨a, ha, b, hb, rfl⟩ := mem_mmBreaks.1 hx
  exact h0 a ha b hb

/-! ### quotients -/

theorem cutD_pos {eps : ℝ} (he : 0 ≤ eps) {f : PF ℝ} (hf : PF.WF eps f) (h0 : PosPF f) : PosPF (cutD f) ∧ PF.WF eps (cutD f) := by
  unfold cutD
  split_ifs
  · exact ⟨h0, hf⟩
  · exact split_pos he (finites_sorted (npUnique_sorted _)) hf (splitByPoints_eq he (finites_sorted (npUnique_sorted _)) hf) h0

theorem fdiv_pos {a b v : EReal} (ha : 0 ≤ a) (hb : 0 ≤ b) (h : fdiv false a b = some v) : 0 ≤ v := by
  unfold fdiv at h
  split_ifs at h with h1 h2 h3
  · cases h; exact le_top
  · exfalso
    have : a = 0 := le_antisymm (not_lt.1 fun h' => h3 ⟨fun _ => rfl, fun _ => h'⟩) ha
    exact h1 (.inl ⟨this, h2⟩)
  · cases h; exact EReal.div_nonneg ha hb

theorem divTable_pos {eps : ℝ} {f g : PF ℝ} (hf : PF.WF eps f) (hg : PF.WF eps g) (pf : PosPF f) (pg : PosPF g) {v : EReal}
    (h : some v ∈ divTable false f g) : 0 ≤ v := by
  have n1 : (signs f).2 = false := by
    rw [signs, List.any_eq_false]
    intro s hs
    simp only [decide_eq_true_eq, not_lt]
    exact pf s hs
  have n2 : (zeroSigns g).2.2 = false := by
    simp only [zeroSigns, List.any_eq_false]
    intro s hs
    simp only [decide_eq_true_eq, not_lt]
    exact pg s (List.mem_filter.1 hs).1
  rw [divTable_eq, n1, n2] at h
  dsimp only at h
  have key : some v ∈ quots false f g → 0 ≤ v := by
    intro h
    obtain ⟨a, ha, c, hc, e⟩ := mem_quots.1 h
    exact fdiv_pos (breaks_pos hf pf ha) (breaks_pos hg pg hc) e
  simp only [Bool.and_false, Bool.false_and, Bool.or_false, Bool.false_eq_true, if_false] at h
  split_ifs at h
  · rcases List.mem_append.1 h with h | h
    · exact key h
    · obtain rfl : v = ⊤ := by simpa using h
      exact le_top
  · exact key h

theorem divInsert_pos {ub : List EReal} (hs : ub.Pairwise (· < ·)) (h0 : ∀ x ∈ ub, 0 ≤ x) {x : EReal} (h : x ∈ divInsert ub) : 0 ≤ x := by
  have hi : 0 ∈ ub → ub.idxOf 0 = 0 := by
    intro hm
    cases ub with
    | nil => simp at hm
    | cons y l =>
      rcases List.mem_cons.1 hm with h1 | h1
      · rw [← h1]; simp
      · exact absurd ((List.pairwise_cons.1 hs).1 0 h1) (not_lt.2 (h0 y (by simp)))
  unfold divInsert at h
  dsimp only at h
  rw [if_neg (c := 0 ∈ ub ∧ 0 < ub.idxOf 0 ∧ _) fun ⟨h1, h2, _⟩ => by rw [hi h1] at h2; exact lt_irrefl _ h2] at h
  have : x = 0 ∨ x = 1 ∨ x ∈ ub := by
    split_ifs at h <;> (try simp only [mem_insLeft] at h) <;> tauto
  rcases this with rfl | rfl | h
  · exact le_rfl
  · exact zero_le_one
  · exact h0 x h

theorem dBreaks_pos {P : Par} {f g : PF ℝ} (he : 0 ≤ P.eps) (hf : PF.WF P.eps f) (hg : PF.WF P.eps g) (pf : PosPF f) (pg : PosPF g) {x : Ext ℝ}
    (h : x ∈ dBreaks P false f g) : .fin 0 ≤ x := by
  obtain ⟨p1, w1⟩ := cutD_pos he hf pf
  obtain ⟨p2, w2⟩ := cutD_pos he hg pg
  unfold dBreaks divBreaks at h
  replace h := mem_npUnique.1 h
  obtain ⟨c1, c2, -⟩ := C17_epsunique_partial P.eps ((divTable0 false (cutD f) (cutD g)).filterMap id : List (Ext ℝ))
  refine divInsert_pos (c1.imp fun h => h.1) (fun y hy => ?_) h
  obtain ⟨o, ho, e⟩ := List.mem_filterMap.1 (c2 y hy)
  obtain rfl : o = some y := e
  unfold divTable0 at ho
  dsimp only at ho
  split_ifs at ho
  · rcases List.mem_append.1 ho with ho | ho
    · exact divTable_pos w1 w2 p1 p2 ho
    · obtain rfl : y = (0 : EReal) := Option.some.inj (List.mem_singleton.1 ho)
      exact le_rfl
  · exact divTable_pos w1 w2 p1 p2 ho

theorem div_pos' {P : Par} {f g : PF ℝ} (h : DivBase P f g) (hf : ContPF f ∨ ContPF g) (pf : PosPF f) (pg : PosPF g) {arr : Bool} {pole : ℝ → ℝ → Pole}
    {r : PF ℝ} (hr : convdiv P false arr pole f g = some r) : PosPF r := by
  rw [convdiv, cutD_eq h.eps h.fne h.fwf, Option.bind_some, cutD_eq h.eps h.gne h.gwf, Option.bind_some] at hr
  split_ifs at hr
  rw [Option.bind_eq_some_iff] at hr
  obtain ⟨fg, h1, h2⟩ := hr
  rw [h.diracs, convdiracs_nil (hf.imp (cutD_cont h.fwf) (cutD_cont h.gwf)), Option.bind_some] at h2
  simp only [PF.diracs, List.filter_nil, PF.addAll, Option.some.injEq] at h2
  subst h2
  exact pos_pieces (dBreaks_sorted P false f g) (h.no_both false) h1 fun x hx => dBreaks_pos h.eps h.fwf h.gwf pf pg hx

end Pacal.Identity
