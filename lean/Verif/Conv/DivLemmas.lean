import Verif.Conv.DivBounds
import Verif.Conv.ProdLemmas

/-! The quotient of two distributions: everything put together. -/

namespace Pacal

/-- the points of a distribution in a quotient where something may change: the ends of the pieces, 0, and the points at which
the pieces may be cut in addition: -1, -1/2, and halves and quarters of ends -/
def PF.divMarks (l : PF ℝ) : Set ℝ := l.ends ∪ {0, -1, -1 / 2} ∪ {x | ∃ e ∈ l.ends, x = e / 2 ∨ x = e / 4}

/-- quotients of marks -/
def quotSet (f g : PF ℝ) : Set ℝ := {x | ∃ p ∈ f.divMarks, ∃ q ∈ g.divMarks, x = p / q}

/-- different quotients of marks differ by more than the relative tolerance `eps` -/
def ApartDiv (eps : ℝ) (f g : PF ℝ) : Prop :=
  ∀ u ∈ quotSet f g, ∀ v ∈ quotSet f g, u ≠ v → eps * max 1 |u| < |u - v|

namespace Conv
open MeasureTheory Set Transform Breaks

/-- the basic hypotheses on the arguments of a quotient -/
structure DivBase (P : Par) (f g : PF ℝ) : Prop where
  eps : 0 ≤ P.eps
  fne : f ≠ []
  gne : g ≠ []
  fwf : PF.WF P.eps f
  gwf : PF.WF P.eps g
  apart : ApartDiv P.eps f g
  g0 : ∀ n, Seg.dirac 0 n ∉ g

/-- the hypotheses for the law of the quotient.  They exclude the cases in which the code is wrong: an atom at 0 in the
numerator with a continuous denominator, and a denominator with atoms unless the numerator has piecewise constant density. -/
structure DivArgs (P : Par) (f g : PF ℝ) : Prop extends DivBase P f g where
  f0 : ∀ m, Seg.dirac 0 m ∈ f → ∀ s ∈ g, s.isDirac = true
  flat : (∃ b n, Seg.dirac b n ∈ g) → ∀ s ∈ f, s.isDirac = false → Flat s

variable {P : Par} {f g : PF ℝ} {eps : ℝ}

/-! ### cutting -/

theorem mem_insLeft {l : List EReal} {x y : EReal} : y ∈ insLeft l x ↔ y = x ∨ y ∈ l := by
  unfold insLeft
  dsimp only
  obtain ⟨i, hi⟩ : ∃ i, i = bisectLeft (fun a b => open Classical in decide (a < b)) l x := ⟨_, rfl⟩
  have : y ∈ l ↔ y ∈ l.take i ∨ y ∈ l.drop i := by rw [← List.mem_append, List.take_append_drop]
  rw [← hi, this]
  simp only [List.mem_append, List.mem_cons]
  tauto

theorem getD_mem {l : List EReal} {i : ℕ} : l.getD i 0 ∈ l ∨ l.getD i 0 = 0 := by
  by_cases h : i < l.length
  · left; rw [List.getD_eq_getElem?_getD, List.getElem?_eq_getElem h]; exact List.getElem_mem h
  · right; rw [List.getD_eq_getElem?_getD, List.getElem?_eq_none (not_lt.1 h)]; rfl

theorem divPoints_zero (bs : List EReal) : (0 : EReal) ∈ divPoints bs := by
  unfold divPoints
  dsimp only
  obtain ⟨l, hl⟩ : ∃ l, l = (open Classical in if (0 : EReal) ∈ bs then bs else insLeft bs 0) := ⟨_, rfl⟩
  have h0 : (0 : EReal) ∈ l := by
    rw [hl]; split_ifs with h
    · exact h
    · exact mem_insLeft.2 (.inl rfl)
  rw [← hl]
  split_ifs <;> simp [mem_insLeft, h0]

theorem half_real {a : EReal} {x : ℝ} (h : (x : EReal) = a / 2) : ∃ r : ℝ, a = r ∧ x = r / 2 := by
  induction a using EReal.rec with
  | bot => rw [EReal.bot_div_of_pos_ne_top (by norm_num) (by exact EReal.coe_ne_top 2)] at h; exact absurd h (EReal.coe_ne_bot _)
  | top => rw [EReal.top_div_of_pos_ne_top (by norm_num) (by exact EReal.coe_ne_top 2)] at h; exact absurd h (EReal.coe_ne_top _)
  | coe r => exact ⟨r, rfl, EReal.coe_eq_coe_iff.1 (h.trans (EReal.coe_div r 2).symm)⟩

theorem divPoints_mem {bs : List EReal} {x : ℝ} (h : (x : EReal) ∈ divPoints bs) :
    (x : EReal) ∈ bs ∨ x = 0 ∨ x = -1 ∨ x = -1 / 2 ∨ ∃ e : ℝ, (e : EReal) ∈ bs ∧ (x = e / 2 ∨ x = e / 4) := by
  unfold divPoints at h
  dsimp only at h
  obtain ⟨l, hl⟩ : ∃ l, l = (open Classical in if (0 : EReal) ∈ bs then bs else insLeft bs 0) := ⟨_, rfl⟩
  rw [← hl] at h
  have h0 : ∀ y : EReal, y ∈ l → y ∈ bs ∨ y = 0 := by
    intro y hy
    rw [hl] at hy; split_ifs at hy
    · exact .inl hy
    · exact (mem_insLeft.1 hy).symm
  obtain ⟨i, hi⟩ : ∃ i, i = l.idxOf 0 := ⟨_, rfl⟩
  rw [← hi] at h
  obtain ⟨l', hl'⟩ : ∃ l', l' = (open Classical in if i + 2 = l.length then
      insLeft l (if isInf (l.getD (i + 1) 0) then -1 else l.getD (i + 1) 0 / 2) else l) := ⟨_, rfl⟩
  rw [← hl'] at h
  have h1 : ∀ y : ℝ, (y : EReal) ∈ l' → (y : EReal) ∈ bs ∨ y = 0 ∨ y = -1 ∨ ∃ e : ℝ, (e : EReal) ∈ bs ∧ y = e / 2 := by
    intro y hy
    have h00 : (y : EReal) ∈ l → (y : EReal) ∈ bs ∨ y = 0 := fun h => (h0 _ h).imp id fun h => EReal.coe_eq_zero.1 h
    rw [hl'] at hy; split_ifs at hy with c1 c2
    · rcases mem_insLeft.1 hy with e | hy
      · exact .inr (.inr (.inl (EReal.coe_eq_coe_iff.1 (e.trans (by simp)))))
      · exact (h00 hy).imp id .inl
    · rcases mem_insLeft.1 hy with e | hy
      · obtain ⟨r, hr, rfl⟩ := half_real e
        rcases getD_mem (l := l) (i := i + 1) with hm | hm
        · rw [hr] at hm
          rcases h0 _ hm with hm | hm
          · exact .inr (.inr (.inr ⟨r, hm, rfl⟩))
          · rw [EReal.coe_eq_zero.1 hm]; simp
        · rw [EReal.coe_eq_zero.1 (hr.symm.trans hm)]; simp
      · exact (h00 hy).imp id .inl
    · exact (h00 hy).imp id .inl
  have h2 : (x : EReal) ∈ l' → (x : EReal) ∈ bs ∨ x = 0 ∨ x = -1 ∨ x = -1 / 2 ∨ ∃ e : ℝ, (e : EReal) ∈ bs ∧ (x = e / 2 ∨ x = e / 4) := by
    intro hx
    rcases h1 x hx with h | h | h | ⟨e, h, h'⟩
    · exact .inl h
    · exact .inr (.inl h)
    · exact .inr (.inr (.inl h))
    · exact .inr (.inr (.inr (.inr ⟨e, h, .inl h'⟩)))
  split_ifs at h with c1 c2
  · rcases mem_insLeft.1 h with e | h
    · exact .inr (.inr (.inl (EReal.coe_eq_coe_iff.1 (e.trans (by simp)))))
    · exact h2 h
  · rcases mem_insLeft.1 h with e | h
    · obtain ⟨r, hr, rfl⟩ := half_real e
      rcases getD_mem (l := l') (i := i - 1) with hm | hm
      · rw [hr] at hm
        rcases h1 _ hm with hm | rfl | rfl | ⟨e', hm', rfl⟩
        · exact .inr (.inr (.inr (.inr ⟨r, hm, .inl rfl⟩)))
        · simp
        · exact .inr (.inr (.inr (.inl rfl)))
        · exact .inr (.inr (.inr (.inr ⟨e', hm', .inr (by ring)⟩)))
      · rw [EReal.coe_eq_zero.1 (hr.symm.trans hm)]; simp
    · exact h2 h
  · exact h2 h

/-- the points at which the pieces are cut -/
noncomputable def cutPts (f : PF ℝ) : List ℝ := PF.finites (PF.npUnique (divPoints (PF.getBreaks f) : List (Ext ℝ)))

/-- 0 is left or right of all pieces -/
def Clear (f : PF ℝ) : Prop :=
  0 < ((PF.getBreaks f).headD (.fin 0) : EReal) ∨ ((PF.getBreaks f).getLastD (.fin 0) : EReal) < 0

open Classical in
/-- the function cut for the quotient -/
noncomputable def cutD (f : PF ℝ) : PF ℝ := if Clear f then f else f.flatMap (PF.splitSeg (cutPts f))

theorem cutPts_sorted (f : PF ℝ) : (cutPts f).Pairwise (· < ·) := finites_sorted (npUnique_sorted _)

theorem cutPts_zero (f : PF ℝ) : (0 : ℝ) ∈ cutPts f :=
  (Pacal.mem_finites).2 (mem_npUnique.2 (divPoints_zero _))

theorem cutPts_marks {x : ℝ} (h : x ∈ cutPts f) : x ∈ f.divMarks := by
  have h := mem_npUnique.1 ((Pacal.mem_finites).1 h)
  rcases divPoints_mem (bs := PF.getBreaks f) h with h | rfl | rfl | rfl | ⟨e, h, h'⟩
  · exact .inl (.inl (mem_breaks_ends h))
  · exact .inl (.inr (by simp))
  · exact .inl (.inr (by simp))
  · exact .inl (.inr (by simp))
  · exact .inr ⟨e, mem_breaks_ends h, h'⟩

theorem getBreaks_ne (h : f ≠ []) : PF.getBreaks f ≠ [] := by
  obtain ⟨a, ha⟩ := exists_fin_break h
  exact List.ne_nil_of_mem ha

theorem cutD_eq (he : 0 ≤ eps) (hn : f ≠ []) (hf : PF.WF eps f) : splitForDiv eps f = some (cutD f) := by
  unfold splitForDiv cutD
  rw [if_neg (getBreaks_ne hn)]
  split_ifs with h1 h2 h2
  · rfl
  · exact absurd h1 h2
  · exact absurd h2 h1
  · exact splitByPoints_eq he (cutPts_sorted f) hf

theorem cutD_wf (hf : PF.WF eps f) : PF.WF eps (cutD f) := by
  unfold cutD
  split_ifs
  · exact hf
  · exact split_wf (cutPts_sorted f) hf

theorem cutD_law (he : 0 ≤ eps) (hf : PF.WF eps f) (hd : PF.Dens f) :
    PF.Dens (cutD f) ∧ PF.law (cutD f) = PF.law f ∧ ∀ x, PF.val (cutD f) x = f.val x := by
  unfold cutD
  split_ifs
  · exact ⟨hd, rfl, fun _ => rfl⟩
  · obtain ⟨f', f1, f2, f3, f4⟩ := C04_law he _ (cutPts_sorted f) f hf hd
    obtain rfl : f' = f.flatMap (PF.splitSeg (cutPts f)) := by
      rw [splitByPoints_eq he (cutPts_sorted f) hf] at f1; exact (Option.some.inj f1).symm
    exact ⟨f3, f4, fun x => (split_val (cutPts_sorted f) hf x).1⟩

theorem head_le {l : List EReal} (h : l.Pairwise (· < ·)) {x d : EReal} (hx : x ∈ l) : l.headD d ≤ x := by
  cases l with
  | nil => simp at hx
  | cons y l =>
    rcases List.mem_cons.1 hx with rfl | hx
    · exact le_rfl
    · exact ((List.pairwise_cons.1 h).1 x hx).le

theorem le_last {l : List EReal} (h : l.Pairwise (· < ·)) {x d : EReal} (hx : x ∈ l) : x ≤ l.getLastD d := by
  induction l generalizing d x with
  | nil => simp at hx
  | cons y l ih =>
    rw [List.getLastD_cons]
    rcases List.mem_cons.1 hx with rfl | hx
    · cases l with
      | nil => exact le_rfl
      | cons z l => exact ((List.pairwise_cons.1 h).1 z (by simp)).le.trans (ih (List.pairwise_cons.1 h).2 (by simp))
    · exact ih (List.pairwise_cons.1 h).2 hx

theorem cutD_side (hf : PF.WF eps f) {s : Seg ℝ} (hs : s ∈ cutD f) : OneSide s := by
  unfold cutD at hs
  split_ifs at hs with h
  · rcases h with h | h
    · exact .inl (h.le.trans (head_le (getBreaks_sorted f) (mem_getBreaks.2 ⟨s, hs, .inl rfl⟩)))
    · exact .inr ((le_last (getBreaks_sorted f) (mem_getBreaks.2 ⟨s, hs, .inr rfl⟩)).trans h.le)
  · obtain ⟨s', hs', hts⟩ := List.mem_flatMap.1 hs
    have := (splitSeg_ok eps (cutPts_sorted f) (hf.seg s' hs')).cut 0 (cutPts_zero f) s hts
    by_contra hc
    unfold OneSide at hc
    push Not at hc
    exact this hc

theorem cutD_diracs (hf : PF.WF eps f) : PF.diracs (cutD f) = PF.diracs f := by
  unfold cutD
  split_ifs
  · rfl
  · exact split_diracs (cutPts_sorted f) hf

theorem cutD_dirac (hf : PF.WF eps f) {a m : ℝ} : Seg.dirac a m ∈ cutD f ↔ Seg.dirac a m ∈ f := by
  have : ∀ l : PF ℝ, Seg.dirac a m ∈ l ↔ Seg.dirac a m ∈ PF.diracs l := by
    intro l; simp [PF.diracs, Seg.isDirac]
  rw [this (cutD f), this f, cutD_diracs hf]

theorem cutD_atoms (hf : PF.WF eps f) : (cutD f).atomsOf = f.atomsOf := by
  have : ∀ l : PF ℝ, l.atomsOf = (PF.diracs l).atomsOf := by
    intro l
    unfold PF.atomsOf PF.diracs
    rw [List.filterMap_filter]
    congr 1
    funext s
    cases s <;> simp [Seg.isDirac]
  rw [this (cutD f), this f, cutD_diracs hf]

theorem cutD_ends (hf : PF.WF eps f) {x : ℝ} (h : x ∈ PF.ends (cutD f)) : x ∈ f.divMarks := by
  unfold cutD at h
  split_ifs at h
  · exact .inl (.inl h)
  · obtain ⟨t, ht, h⟩ := h
    obtain ⟨s, hs, hts⟩ := List.mem_flatMap.1 ht
    have ok := splitSeg_ok eps (cutPts_sorted f) (hf.seg s hs)
    have key : ∀ p ∈ cutPts f, Ext.fin p = Ext.fin x → x ∈ f.divMarks := by
      intro p hp e
      obtain rfl : p = x := by simpa [Ext.fin] using e
      exact cutPts_marks hp
    rcases h with h | h
    · rcases (ok.ends t hts).1 with h' | ⟨p, hp, h'⟩
      · exact .inl (.inl ⟨s, hs, .inl (by rw [← h', h])⟩)
      · exact key p hp (h'.symm.trans h)
    · rcases (ok.ends t hts).2 with h' | ⟨p, hp, h'⟩
      · exact .inl (.inl ⟨s, hs, .inr (by rw [← h', h])⟩)
      · exact key p hp (h'.symm.trans h)

theorem splitSeg_ne' (pts : List ℝ) (s : Seg ℝ) : PF.splitSeg pts s ≠ [] := by
  have h1 : ∀ (pole : Pole) (a₀ b₀ : ℝ) (F : ℝ → ℝ) (ps : List ℝ) (x : ℝ), PF.splitFin pole a₀ b₀ F x ps ≠ [] := by
    intro pole a₀ b₀ F ps x; cases ps <;> simp [PF.splitFin]
  have h2 : ∀ (F : ℝ → ℝ) (ps : List ℝ) (x : ℝ), PF.splitPInf F x ps ≠ [] := by
    intro F ps x; cases ps <;> simp [PF.splitPInf]
  cases s with
  | fin => exact h1 _ _ _ _ _ _
  | const => exact h1 _ _ _ _ _ _
  | minf b F => rw [PF.splitSeg]; split <;> simp
  | pinf => exact h2 _ _ _
  | dirac => simp [PF.splitSeg]

theorem cutD_ne (hf : f ≠ []) : cutD f ≠ [] := by
  unfold cutD
  split_ifs
  · exact hf
  · cases f with
    | nil => exact absurd rfl hf
    | cons s l =>
      rw [List.flatMap_cons]
      intro h
      exact splitSeg_ne' _ s (List.append_eq_nil_iff.1 h).1

theorem cutD_fn (hf : PF.WF eps f) {t : Seg ℝ} (ht : t ∈ cutD f) (htd : t.isDirac = false) :
    ∃ s ∈ f, s.isDirac = false ∧ t.fn = s.fn := by
  unfold cutD at ht
  split_ifs at ht
  · exact ⟨t, ht, htd, rfl⟩
  · obtain ⟨s, hs, hts⟩ := List.mem_flatMap.1 ht
    have ok := splitSeg_ok eps (cutPts_sorted f) (hf.seg s hs)
    refine ⟨s, hs, ?_, ok.fn t hts⟩
    by_contra hc
    have := ok.dirac' (by simpa using hc)
    rw [this, List.mem_singleton] at hts
    subst hts
    rw [htd] at hc
    exact hc rfl

/-! ### break points -/

theorem fdiv_ne {neg0 : Bool} {a c : EReal} (hc : c ≠ 0) (h : ¬ (isInf a ∧ isInf c)) : fdiv neg0 a c = some (a / c) := by
  unfold fdiv
  rw [if_neg (by tauto), if_neg hc]

theorem fdiv_finite {neg0 : Bool} {a c : EReal} {v : ℝ} (h : fdiv neg0 a c = some (v : EReal)) :
    v = 0 ∨ ∃ p q : ℝ, a = p ∧ c = q ∧ q ≠ 0 ∧ v = p / q := by
  unfold fdiv at h
  split_ifs at h with h1 h2 h3
  · exact absurd (Option.some.inj h).symm (EReal.coe_ne_top _)
  · exact absurd (Option.some.inj h).symm (EReal.coe_ne_bot _)
  · have h := Option.some.inj h
    push Not at h1
    induction c using EReal.rec with
    | bot => rw [EReal.div_bot] at h; exact .inl (EReal.coe_eq_zero.1 h.symm)
    | top => rw [EReal.div_top] at h; exact .inl (EReal.coe_eq_zero.1 h.symm)
    | coe q =>
      have hq : q ≠ 0 := fun e => h2 (by rw [e]; rfl)
      induction a using EReal.rec with
      | bot =>
        exfalso
        rcases lt_or_gt_of_ne hq with hq | hq
        · rw [EReal.bot_div_of_neg_ne_bot (EReal.coe_neg'.2 hq) (EReal.coe_ne_bot _)] at h; exact EReal.coe_ne_top _ h.symm
        · rw [EReal.bot_div_of_pos_ne_top (EReal.coe_pos.2 hq) (EReal.coe_ne_top _)] at h; exact EReal.coe_ne_bot _ h.symm
      | top =>
        exfalso
        rcases lt_or_gt_of_ne hq with hq | hq
        · rw [EReal.top_div_of_neg_ne_bot (EReal.coe_neg'.2 hq) (EReal.coe_ne_bot _)] at h; exact EReal.coe_ne_bot _ h.symm
        · rw [EReal.top_div_of_pos_ne_top (EReal.coe_pos.2 hq) (EReal.coe_ne_top _)] at h; exact EReal.coe_ne_top _ h.symm
      | coe p => exact .inr ⟨p, q, rfl, rfl, hq, EReal.coe_eq_coe_iff.1 (h.symm.trans (EReal.coe_div p q).symm)⟩

/-- the table of quotients -/
noncomputable def quots (neg0 : Bool) (f g : PF ℝ) : List (Option EReal) :=
  (PF.getBreaks f).flatMap fun a => (PF.getBreaks g).map fun c => fdiv neg0 a c

theorem divTable_eq (neg0 : Bool) (f g : PF ℝ) : divTable neg0 f g =
    (let b := if (zeroSigns g).1 && (((signs f).1 && (zeroSigns g).2.2) || ((signs f).2 && (zeroSigns g).2.1)) then
        quots neg0 f g ++ [some ⊥] else quots neg0 f g
     if (zeroSigns g).1 && (((signs f).1 && (zeroSigns g).2.1) || ((signs f).2 && (zeroSigns g).2.2)) then b ++ [some ⊤] else b) := rfl

theorem mem_quots {neg0 : Bool} {v : Option EReal} : v ∈ quots neg0 f g ↔ ∃ a ∈ PF.getBreaks f, ∃ c ∈ PF.getBreaks g, fdiv neg0 a c = v := by
  unfold quots
  exact List.mem_flatMap.trans (exists_congr fun _ => and_congr_right fun _ => List.mem_map)

theorem divTable_of {neg0 : Bool} {v : Option EReal} (h : v ∈ quots neg0 f g) : v ∈ divTable neg0 f g := by
  rw [divTable_eq]
  dsimp only
  split_ifs <;> simp only [List.mem_append, h, true_or]

theorem divTable_cases {neg0 : Bool} {v : Option EReal} (h : v ∈ divTable neg0 f g) : v ∈ quots neg0 f g ∨ v = some ⊥ ∨ v = some ⊤ := by
  rw [divTable_eq] at h
  dsimp only at h
  split_ifs at h <;> (try simp only [List.mem_append, List.mem_singleton] at h) <;> tauto

theorem signs_pos {s : Seg ℝ} (hs : s ∈ f) (h : 0 < hi s) : (signs f).1 = true :=
  List.any_eq_true.2 ⟨s, hs, decide_eq_true h⟩

theorem signs_neg {s : Seg ℝ} (hs : s ∈ f) (h : lo s < 0) : (signs f).2 = true :=
  List.any_eq_true.2 ⟨s, hs, decide_eq_true h⟩

theorem zeroSigns_mem {s : Seg ℝ} (hs : s ∈ g) (h1 : lo s ≤ 0) (h2 : 0 ≤ hi s) : (zeroSigns g).1 = true ∧
    (0 < hi s → (zeroSigns g).2.1 = true) ∧ (lo s < 0 → (zeroSigns g).2.2 = true) := by
  classical
  have hm : s ∈ g.filter fun s => decide (lo s ≤ 0 ∧ 0 ≤ hi s) := List.mem_filter.2 ⟨hs, decide_eq_true ⟨h1, h2⟩⟩
  refine ⟨?_, fun h => ?_, fun h => ?_⟩
  · unfold zeroSigns
    simp only [Bool.not_eq_true', List.isEmpty_eq_false_iff]
    exact List.ne_nil_of_mem (by convert hm)
  · exact List.any_eq_true.2 ⟨s, by convert hm, decide_eq_true h⟩
  · exact List.any_eq_true.2 ⟨s, by convert hm, decide_eq_true h⟩

theorem divTable_top {neg0 : Bool} {si sj : Seg ℝ} (hsi : si ∈ f) (hsj : sj ∈ g) (h1 : lo sj ≤ 0) (h2 : 0 ≤ hi sj)
    (h : (0 < hi si ∧ 0 < hi sj) ∨ (lo si < 0 ∧ lo sj < 0)) : some ⊤ ∈ divTable neg0 f g := by
  obtain ⟨z1, z2, z3⟩ := zeroSigns_mem hsj h1 h2
  have : ((zeroSigns g).1 && (((signs f).1 && (zeroSigns g).2.1) || ((signs f).2 && (zeroSigns g).2.2))) = true := by
    rcases h with ⟨h, h'⟩ | ⟨h, h'⟩
    · simp [z1, z2 h', signs_pos hsi h]
    · simp [z1, z3 h', signs_neg hsi h]
  rw [divTable_eq]
  dsimp only
  rw [if_pos this]
  simp

theorem divTable_bot {neg0 : Bool} {si sj : Seg ℝ} (hsi : si ∈ f) (hsj : sj ∈ g) (h1 : lo sj ≤ 0) (h2 : 0 ≤ hi sj)
    (h : (0 < hi si ∧ lo sj < 0) ∨ (lo si < 0 ∧ 0 < hi sj)) : some ⊥ ∈ divTable neg0 f g := by
  obtain ⟨z1, z2, z3⟩ := zeroSigns_mem hsj h1 h2
  have : ((zeroSigns g).1 && (((signs f).1 && (zeroSigns g).2.2) || ((signs f).2 && (zeroSigns g).2.1))) = true := by
    rcases h with ⟨h, h'⟩ | ⟨h, h'⟩
    · simp [z1, z3 h', signs_pos hsi h]
    · simp [z1, z2 h', signs_neg hsi h]
  rw [divTable_eq]
  dsimp only
  rw [if_pos this]
  split_ifs <;> simp

/-- the non-NaN entries of the table -/
noncomputable def divVals (neg0 : Bool) (f g : PF ℝ) : List (Ext ℝ) := (divTable0 neg0 f g).filterMap id

theorem mem_divVals {neg0 : Bool} {v : EReal} (h : some v ∈ divTable neg0 f g) : (v : Ext ℝ) ∈ divVals neg0 f g := by
  have h' : some v ∈ divTable0 neg0 f g := by
    unfold divTable0
    dsimp only
    split_ifs
    · exact List.mem_append_left _ h
    · exact h
  exact List.mem_filterMap.2 ⟨some v, h', rfl⟩

theorem divVals_cases {neg0 : Bool} {v : EReal} (h : (v : Ext ℝ) ∈ divVals neg0 f g) : some v ∈ divTable neg0 f g ∨ v = 0 := by
  unfold divVals divTable0 at h
  obtain ⟨w, hw, rfl⟩ : ∃ w, w ∈ _ ∧ w = some v := List.mem_filterMap.1 h
  dsimp only at hw
  split_ifs at hw
  · rcases List.mem_append.1 hw with hw | hw
    · exact .inl hw
    · exact .inr (Option.some.inj (List.mem_singleton.1 hw))
  · exact .inl hw

theorem zero_quot (f g : PF ℝ) : (0 : ℝ) ∈ quotSet f g := ⟨0, .inl (.inr (by simp)), 0, .inl (.inr (by simp)), by simp⟩

theorem divVals_fin (hf : PF.WF eps f) (hg : PF.WF eps g) {neg0 : Bool} {c : ℝ}
    (h : Ext.fin c ∈ divVals neg0 (cutD f) (cutD g)) : c ∈ quotSet f g := by
  rcases divVals_cases (v := (c : EReal)) h with h | h
  · rcases divTable_cases h with h | h | h
    · obtain ⟨a, ha, b, hb, e⟩ := mem_quots.1 h
      rcases fdiv_finite e with rfl | ⟨p, q, rfl, rfl, -, rfl⟩
      · exact zero_quot f g
      · exact ⟨p, cutD_ends hf (mem_breaks_ends ha), q, cutD_ends hg (mem_breaks_ends hb), rfl⟩
    · exact absurd (Option.some.inj h) (EReal.coe_ne_bot _)
    · exact absurd (Option.some.inj h) (EReal.coe_ne_top _)
  · rw [EReal.coe_eq_zero.1 h]; exact zero_quot f g

/-- the break points of the quotient -/
noncomputable def dBreaks (P : Par) (neg0 : Bool) (f g : PF ℝ) : List (Ext ℝ) := divBreaks P neg0 (cutD f) (cutD g)

theorem dBreaks_sorted (P : Par) (neg0 : Bool) (f g : PF ℝ) : (dBreaks P neg0 f g).Pairwise (· < ·) := npUnique_sorted _

theorem DivBase.unique (h : DivBase P f g) (neg0 : Bool) :
    (epsunique P.eps (divVals neg0 (cutD f) (cutD g))).Pairwise (· < ·) ∧
    ∀ x, x ∈ epsunique P.eps (divVals neg0 (cutD f) (cutD g)) ↔ x ∈ divVals neg0 (cutD f) (cutD g) := by
  obtain ⟨c1, c2, c3, -⟩ := C17_epsunique_partial P.eps (divVals neg0 (cutD f) (cutD g))
  refine ⟨c1.imp fun h => h.1, fun x => ⟨c2 x, fun hx => ?_⟩⟩
  rcases c3 x hx with h1 | ⟨y, hy, hlt, a, b, rfl, rfl, hc⟩
  · exact h1
  · exfalso
    have h1 := divVals_fin h.fwf h.gwf hx
    have h2 := divVals_fin h.fwf h.gwf hy
    have hlt' : a < b := EReal.coe_lt_coe_iff.1 hlt
    have := h.apart b h1 a h2 hlt'.ne'
    rw [abs_of_pos (sub_pos.2 hlt')] at this
    linarith

theorem mem_divInsert {ub : List EReal} {x : EReal} (h : x ∈ ub) : x ∈ divInsert ub := by
  unfold divInsert
  dsimp only
  split_ifs <;> simp [mem_insLeft, h]

theorem divInsert_zero {ub : List EReal} (hs : ub.Pairwise (· < ·)) {a b : EReal} (ha : a ∈ divInsert ub) (hb : b ∈ divInsert ub)
    (ha0 : a < 0) (hb0 : 0 < b) : (0 : EReal) ∈ divInsert ub := by
  by_cases h0 : (0 : EReal) ∈ ub
  · exact mem_divInsert h0
  · have e : divInsert ub = (open Classical in if ∃ v, fmul (ub.headD 0) (ub.getLastD 0) = some v ∧ v < 0 then insLeft ub 0 else ub) := by
      unfold divInsert
      simp [h0]
    rw [e] at ha hb ⊢
    split_ifs at ha hb ⊢ with hc
    · exact mem_insLeft.2 (.inl rfl)
    · exfalso
      have h1 := (head_le hs (d := 0) ha).trans_lt ha0
      have h2 := hb0.trans_le (le_last hs (d := 0) hb)
      refine hc ⟨ub.headD 0 * ub.getLastD 0, ?_, ?_⟩
      · unfold fmul
        rw [if_neg (by
          rintro (⟨h, -⟩ | ⟨h, -⟩)
          · exact h1.ne h
          · exact h2.ne' h)]
      · rw [EReal.mul_neg_iff]
        exact .inr ⟨h1, h2⟩

theorem DivBase.mem_vals (h : DivBase P f g) {neg0 : Bool} {v : EReal} (hv : some v ∈ divTable neg0 (cutD f) (cutD g)) :
    (v : Ext ℝ) ∈ dBreaks P neg0 f g :=
  mem_npUnique.2 (mem_divInsert (((h.unique neg0).2 v).2 (mem_divVals hv)))

theorem DivBase.mem (h : DivBase P f g) {neg0 : Bool} {a b : EReal} {c : EReal} (ha : (a : Ext ℝ) ∈ PF.getBreaks (cutD f))
    (hb : (b : Ext ℝ) ∈ PF.getBreaks (cutD g)) (e : fdiv neg0 a b = some c) : (c : Ext ℝ) ∈ dBreaks P neg0 f g :=
  h.mem_vals (divTable_of (mem_quots.2 ⟨a, ha, b, hb, e⟩))

theorem DivBase.mem_fin (h : DivBase P f g) {neg0 : Bool} {a b : ℝ} (ha : Ext.fin a ∈ PF.getBreaks (cutD f))
    (hb : Ext.fin b ∈ PF.getBreaks (cutD g)) (hb0 : b ≠ 0) : Ext.fin (a / b) ∈ dBreaks P neg0 f g := by
  refine h.mem ha hb (c := ((a / b : ℝ) : EReal)) ?_
  rw [EReal.coe_div]
  refine fdiv_ne (fun e => hb0 (EReal.coe_eq_zero.1 e)) ?_
  rintro ⟨h | h, -⟩
  · exact EReal.coe_ne_top _ h
  · exact EReal.coe_ne_bot _ h

theorem DivBase.zero (h : DivBase P f g) {neg0 : Bool} {a b : Ext ℝ} (ha : a ∈ dBreaks P neg0 f g) (hb : b ∈ dBreaks P neg0 f g)
    (ha0 : a < Ext.fin 0) (hb0 : Ext.fin 0 < b) : Ext.fin (0 : ℝ) ∈ dBreaks P neg0 f g :=
  mem_npUnique.2 (divInsert_zero (h.unique neg0).1 (mem_npUnique.1 ha) (mem_npUnique.1 hb) ha0 hb0)

theorem DivBase.fin (h : DivBase P f g) (neg0 : Bool) : ∃ c : ℝ, Ext.fin c ∈ dBreaks P neg0 f g := by
  obtain ⟨p, hp⟩ := exists_fin_break (cutD_ne h.fne)
  obtain ⟨s, hs⟩ := List.exists_mem_of_ne_nil _ (cutD_ne h.gne)
  have he : ∃ e : EReal, (e : Ext ℝ) ∈ PF.getBreaks (cutD g) ∧ e ≠ 0 := by
    rcases isDirac_cases s with hsd | ⟨b, n, rfl⟩
    · have hlt := lo_lt_hi hsd ((cutD_wf h.gwf).seg s hs)
      by_cases h0 : lo s = 0
      · exact ⟨hi s, mem_getBreaks.2 ⟨s, hs, .inr rfl⟩, (h0 ▸ hlt).ne'⟩
      · exact ⟨lo s, mem_getBreaks.2 ⟨s, hs, .inl rfl⟩, h0⟩
    · refine ⟨b, dirac_break hs, ?_⟩
      rintro e
      rw [EReal.coe_eq_zero.1 e] at hs
      exact h.g0 n ((cutD_dirac h.gwf).1 hs)
  obtain ⟨e, he, he0⟩ := he
  have hm := h.mem (neg0 := neg0) hp he (fdiv_ne (a := (p : EReal)) he0 (by
    rintro ⟨h | h, -⟩
    · exact EReal.coe_ne_top _ h
    · exact EReal.coe_ne_bot _ h))
  induction e using EReal.rec with
  | bot => rw [EReal.div_bot] at hm; exact ⟨0, hm⟩
  | top => rw [EReal.div_top] at hm; exact ⟨0, hm⟩
  | coe q => exact ⟨p / q, by rw [← EReal.coe_div] at hm; exact hm⟩

theorem DivBase.no_both (h : DivBase P f g) (neg0 : Bool) (a b : Ext ℝ) (hab : [a, b] <:+: dBreaks P neg0 f g) :
    ¬ (a = .ninf ∧ b = .pinf) := by
  rintro ⟨rfl, rfl⟩
  obtain ⟨c, hc⟩ := h.fin neg0
  rcases infix_between (dBreaks_sorted ..) hab hc with h1 | h1
  · exact not_le_ninf _ h1
  · exact not_pinf_le _ h1

theorem DivBase.sign (h : DivBase P f g) {neg0 : Bool} {a b : Ext ℝ} (hab : [a, b] <:+: dBreaks P neg0 f g) {x z : ℝ}
    (hx : x ∈ interE a b) (hz : z ∈ interE a b) : (0 < x ∧ 0 < z) ∨ (x < 0 ∧ z < 0) := by
  have hn : ¬ (a < Ext.fin 0 ∧ Ext.fin 0 < b) := fun hc =>
    not_inside (dBreaks_sorted ..) (h.zero (hab.subset (by simp)) (hab.subset (by simp)) hc.1 hc.2) a b hab hc
  rcases le_or_gt (Ext.fin (0 : ℝ)) a with h0 | h0
  · exact .inl ⟨EReal.coe_pos.1 (lt_of_le_of_lt h0 hx.1), EReal.coe_pos.1 (lt_of_le_of_lt h0 hz.1)⟩
  · have h1 : b ≤ Ext.fin 0 := not_lt.1 fun h1 => hn ⟨h0, h1⟩
    exact .inr ⟨EReal.coe_neg'.1 (lt_of_lt_of_le hx.2 h1), EReal.coe_neg'.1 (lt_of_lt_of_le hz.2 h1)⟩

/-- the pairs do not change between break points -/
theorem DivBase.same (h : DivBase P f g) {neg0 : Bool} {a b : Ext ℝ} (hab : [a, b] <:+: dBreaks P neg0 f g) {x z : ℝ}
    (hx : x ∈ interE a b) (hz : z ∈ interE a b) {si sj : Seg ℝ} (hi' : si ∈ cutD f) (hj : sj ∈ cutD g) :
    TestDiv z si sj ↔ TestDiv x si sj := by
  have hwj := (cutD_wf h.gwf).seg sj hj
  have hsg := h.sign hab hz hx
  have key : ∀ i e : EReal, (i : Ext ℝ) ∈ PF.getBreaks (cutD f) → (e : Ext ℝ) ∈ PF.getBreaks (cutD g) →
      ((z * e < i) ↔ x * e < i) ∧ ((i < z * e) ↔ i < x * e) := by
    intro i e hi he
    refine cmp_same hsg e i ?_
    rintro p q rfl rfl hq
    exact threshold (dBreaks_sorted ..) hab (h.mem_fin hi he hq) hz hx
  have m1 := mem_getBreaks.2 ⟨si, hi', .inl (rfl : lo si = lo si)⟩
  have m2 := mem_getBreaks.2 ⟨si, hi', .inr (rfl : hi si = hi si)⟩
  have m3 := mem_getBreaks.2 ⟨sj, hj, .inl (rfl : lo sj = lo sj)⟩
  have m4 := mem_getBreaks.2 ⟨sj, hj, .inr (rfl : hi sj = hi sj)⟩
  rcases hsg with ⟨h1, h2⟩ | ⟨h1, h2⟩
  · rw [testDiv_pos h1 hwj, testDiv_pos h2 hwj]
    exact and_congr (key _ _ m2 m3).1 (key _ _ m1 m4).2
  · rw [testDiv_neg h1 hwj, testDiv_neg h2 hwj]
    exact and_congr (key _ _ m2 m4).1 (key _ _ m1 m3).2

theorem testDiv_zero {si sj : Seg ℝ} (hs : OneSide si) : ¬ TestDiv 0 si sj := by
  have key : ∀ {e : EReal} {x : EReal}, fmul ((0 : ℝ) : EReal) e = some x → x = 0 := by
    intro e x h
    unfold fmul at h
    split_ifs at h
    rw [← Option.some.inj h, EReal.coe_zero, zero_mul]
  have hn : ¬ (lo si < 0 ∧ 0 < hi si) := by
    rintro ⟨h1, h2⟩
    rcases hs with h | h
    · exact absurd h1 (not_lt.2 h)
    · exact absurd h2 (not_lt.2 h)
  unfold TestDiv fltLt
  dsimp only
  rintro (⟨⟨x, y, h1, h2, h3⟩, x', y', h4, h5, h6⟩ | ⟨⟨x, y, h1, h2, h3⟩, x', y', h4, h5, h6⟩)
  · rw [key h2, ← Option.some.inj h1] at h3
    rw [key h4, ← Option.some.inj h5] at h6
    exact hn ⟨h3, h6⟩
  · rw [key h1, ← Option.some.inj h2] at h3
    rw [key h5, ← Option.some.inj h4] at h6
    exact hn ⟨h6, h3⟩

theorem points_le {s : Seg ℝ} {t : ℝ} (h : t ∈ s.points) : lo s ≤ t ∧ (t : EReal) ≤ hi s ∧
    (s.isDirac = false → lo s < t ∧ (t : EReal) < hi s) := by
  rcases isDirac_cases s with hs | ⟨b, n, rfl⟩
  · have : lo s < t ∧ (t : EReal) < hi s := by
      cases s <;> first | exact h | simp [Seg.isDirac] at hs
    exact ⟨this.1.le, this.2.le, fun _ => this⟩
  · obtain rfl : t = b := h
    exact ⟨le_rfl, le_rfl, fun h => by simp [Seg.isDirac] at h⟩

theorem DivBase.out (h : DivBase P f g) {neg0 : Bool} {x : ℝ} {si sj : Seg ℝ} (hi' : si ∈ cutD f) (hj : sj ∈ cutD g)
    (ht : TestDiv x si sj) : (∃ a ∈ dBreaks P neg0 f g, a < .fin x) ∧ ∃ b ∈ dBreaks P neg0 f g, .fin x < b := by
  have oi := cutD_side h.fwf hi'
  have oj := cutD_side h.gwf hj
  have hx : x ≠ 0 := by rintro rfl; exact testDiv_zero oi ht
  obtain ⟨t, t1, t2, t3, t4⟩ := testDiv_points hx ((cutD_wf h.fwf).seg si hi') ((cutD_wf h.gwf).seg sj hj) oi oj ht
  obtain ⟨p1, p2, p3⟩ := points_le t1
  obtain ⟨q1, q2, q3⟩ := points_le t2
  have hs : x * t ≠ 0 := mul_ne_zero hx t3
  have hst : (lo si < ((x * t : ℝ) : EReal) ∧ ((x * t : ℝ) : EReal) < hi si) ∨ (lo sj < t ∧ (t : EReal) < hi sj) := t4.imp q3 p3
  have m1 : ∀ e ∈ [lo si, hi si], (e : Ext ℝ) ∈ PF.getBreaks (cutD f) := by
    intro e he
    simp only [List.mem_cons, List.not_mem_nil, or_false] at he
    exact mem_getBreaks.2 ⟨si, hi', he⟩
  have m2 : ∀ e ∈ [lo sj, hi sj], (e : Ext ℝ) ∈ PF.getBreaks (cutD g) := by
    intro e he
    simp only [List.mem_cons, List.not_mem_nil, or_false] at he
    exact mem_getBreaks.2 ⟨sj, hj, he⟩
  have hv : x * t / t = x := by field_simp
  have z1 : ∀ {r : ℝ}, r < 0 → (r : EReal) < 0 := fun h => EReal.coe_neg'.2 h
  have z2 : ∀ {r : ℝ}, 0 < r → 0 < (r : EReal) := fun h => EReal.coe_pos.2 h
  constructor
  · rcases below q1 q2 p1 p2 oi oj hst t3 hs with ⟨e, he, f', hf', k1, k2, k3⟩ | ⟨k1, k2, k3⟩ | ⟨k1, k2, k3⟩
    · rw [hv] at k3
      exact ⟨_, h.mem (m1 e he) (m2 f' hf') (fdiv_ne k1 k2), k3⟩
    · refine ⟨_, h.mem_vals (divTable_bot hi' hj k1.le ((z2 k3).le.trans p2) (.inr ⟨q1.trans_lt (z1 k2), (z2 k3).trans_le p2⟩)), EReal.bot_lt_coe x⟩
    · refine ⟨_, h.mem_vals (divTable_bot hi' hj (p1.trans (z1 k3).le) k1.ge (.inl ⟨(z2 k2).trans_le q2, p1.trans_lt (z1 k3)⟩)), EReal.bot_lt_coe x⟩
  · rcases above q1 q2 p1 p2 oi oj hst t3 hs with ⟨e, he, f', hf', k1, k2, k3⟩ | ⟨k1, k2, k3⟩ | ⟨k1, k2, k3⟩
    · rw [hv] at k3
      exact ⟨_, h.mem (m1 e he) (m2 f' hf') (fdiv_ne k1 k2), k3⟩
    · refine ⟨_, h.mem_vals (divTable_top hi' hj k1.le ((z2 k3).le.trans p2) (.inl ⟨(z2 k2).trans_le q2, (z2 k3).trans_le p2⟩)), EReal.coe_lt_top x⟩
    · refine ⟨_, h.mem_vals (divTable_top hi' hj (p1.trans (z1 k3).le) k1.ge (.inr ⟨q1.trans_lt (z1 k2), p1.trans_lt (z1 k3)⟩)), EReal.coe_lt_top x⟩

theorem runAt_div (P : Par) (arr : Bool) (f g : PF ℝ) : runAt TestDiv (funDiv P arr) f g = divAt P arr f g := by
  ext z x
  rw [runAt, divAt, findSegListDiv]

theorem DivBase.sep (h : DivBase P f g) : Sep P.eps (quotSet f g) := by
  intro x hx y hy
  by_cases e : x = y
  · exact .inl e
  · refine .inr (lt_of_le_of_lt ?_ (h.apart x hx y hy e))
    exact le_mul_of_one_le_right h.eps (le_max_left ..)

theorem dirac_divMarks (hf : PF.WF eps f) {a m : ℝ} (h : Seg.dirac a m ∈ cutD f) : a ∈ f.divMarks :=
  cutD_ends hf ⟨_, h, .inl rfl⟩

theorem DivBase.diracs (h : DivBase P f g) : convdiracsDiv P.eps (cutD f) (cutD g) = convdiracs P.eps (· / ·) (cutD f) (cutD g) := by
  unfold convdiracsDiv
  rw [if_neg]
  intro hc
  obtain ⟨⟨si, sj⟩, hm, h0⟩ := List.any_eq_true.1 hc
  obtain ⟨-, hj, hd⟩ := mem_pairsBy.1 hm
  have h0 : lo sj = 0 := of_decide_eq_true h0
  rcases isDirac_cases sj with hs | ⟨b, n, rfl⟩
  · simp [hs] at hd
  · have hb : b = 0 := EReal.coe_eq_zero.1 h0
    subst hb
    exact h.g0 n ((cutD_dirac h.gwf).1 hj)

theorem DivArgs.pair (h : DivArgs P f g) (hP : ExactQ P.q P.qp) (hf : PF.Dens f) (hg : PF.Dens g) (arr : Bool) {si sj : Seg ℝ}
    (hsi : si ∈ cutD f) (hsj : sj ∈ cutD g) : PairSpec (· / ·) TestDiv (funDiv P arr) divK (atomLaw (· / ·)) si sj := by
  obtain ⟨f3, f4, -⟩ := cutD_law h.eps h.fwf hf
  obtain ⟨g3, g4, -⟩ := cutD_law h.eps h.gwf hg
  refine funDiv_spec hP arr ((cutD_wf h.fwf).seg si hsi) ((cutD_wf h.gwf).seg sj hsj) (f3 si hsi) (g3 sj hsj)
    (cutD_side h.fwf hsi) (cutD_side h.gwf hsj) ?_ ?_ ?_
  · rintro n rfl
    exact h.g0 n ((cutD_dirac h.gwf).1 hsj)
  · rintro m rfl
    by_contra hc
    obtain ⟨s, hs, hsd, -⟩ := cutD_fn h.gwf hsj (by simpa using hc)
    rw [h.f0 m ((cutD_dirac h.fwf).1 hsi) s hs] at hsd
    simp at hsd
  · intro h1 h2
    obtain ⟨s, hs, hsd, e⟩ := cutD_fn h.fwf hsi h1
    rcases isDirac_cases sj with hsj' | ⟨b, n, rfl⟩
    · rw [hsj'] at h2; simp at h2
    · obtain ⟨c, hc⟩ := h.flat ⟨b, n, (cutD_dirac h.gwf).1 hsj⟩ s hs hsd
      exact ⟨c, fun x => by rw [e, hc]⟩

/-- the law and the density of the quotient -/
theorem div_spec (h : DivArgs P f g) (hP : ExactQ P.q P.qp) (hf : PF.Dens f) (hg : PF.Dens g) (neg0 arr : Bool) (pole : ℝ → ℝ → Pole) :
    ∃ r, convdiv P neg0 arr pole f g = some r ∧ PF.WF P.eps r ∧ PF.Dens r ∧ PF.law r = opLaw (· / ·) (PF.law f) (PF.law g) ∧
      (∀ᵐ x, r.val x = sum2 (cutD f) (cutD g) fun i j => divK i j x) ∧
      ∃ d, convdiracs P.eps (· / ·) (cutD f) (cutD g) = some d ∧ ∀ x, r.massAt x = PF.massAt d x := by
  obtain ⟨f3, f4, -⟩ := cutD_law h.eps h.fwf hf
  obtain ⟨g3, g4, -⟩ := cutD_law h.eps h.gwf hg
  have f2 := cutD_wf h.fwf
  have g2 := cutD_wf h.gwf
  obtain ⟨d, d1, d2, d3, d4⟩ := convdiracs_law h.eps (· / ·) f3 g3 (by
    intro a m b n a' m' b' n' h1 h2 h3 h4 hne
    rcases h.sep _ ⟨a, dirac_divMarks h.fwf h1, b, dirac_divMarks h.gwf h2, rfl⟩ _ ⟨a', dirac_divMarks h.fwf h3, b', dirac_divMarks h.gwf h4, rfl⟩
      with e | e
    · exact absurd e hne
    · exact e)
  have hdd : PF.diracs d = d := diracs_self fun s hs => by obtain ⟨x, m, rfl, -⟩ := d3 s hs; rfl
  have dz : AtomList (quotSet f g) d := by
    intro s hs
    obtain ⟨x, m, rfl, hm, a, p, b, q, ha, hb, rfl⟩ := d3 s hs
    exact ⟨_, m, rfl, hm, a, dirac_divMarks h.fwf ha, b, dirac_divMarks h.gwf hb, rfl⟩
  obtain ⟨r, r1, r2, r3, r4, r5, r6, r7, r8⟩ := run_law measurable_quot h.eps f3 g3
    (fun si hsi sj hsj => h.pair hP hf hg arr hsi hsj) (dBreaks_sorted P neg0 f g) (h.no_both neg0)
    (fun a b hab x hx si hsi sj hsj => h.same hab hx (mid_mem (infix_lt (dBreaks_sorted ..) hab) (h.no_both neg0 a b hab)) hsi hsj)
    (fun x si hsi sj hsj ht => h.out hsi hsj ht)
    (D := d) (by
      intro s hs
      obtain ⟨x, m, rfl, hm, a, p, b, q, ha, hb, rfl⟩ := d3 s hs
      have hb0 : b ≠ 0 := by rintro rfl; exact h.g0 q ((cutD_dirac h.gwf).1 hb)
      exact ⟨_, m, rfl, hm, not_inside (dBreaks_sorted ..) (h.mem_fin (dirac_break ha) (dirac_break hb) hb0)⟩)
    (dz.pairwise h.sep) d4 pole
  refine ⟨r, ?_, r2, r3, by rw [r4, f4, g4], r6, d, d1, r5⟩
  rw [runAt_div] at r1
  rw [addAll_append] at r1
  obtain ⟨F, hF, r1⟩ := Option.bind_eq_some_iff.1 r1
  obtain ⟨c, hcm⟩ := h.fin neg0
  have hbne : divBreaks P neg0 (cutD f) (cutD g) ≠ [] := List.ne_nil_of_mem hcm
  rw [convdiv, cutD_eq h.eps h.fne h.fwf, Option.bind_some, cutD_eq h.eps h.gne h.gwf, Option.bind_some, if_neg hbne]
  rw [show pieces pole (divAt P arr (cutD f) (cutD g)) (divBreaks P neg0 (cutD f) (cutD g)) =
    pieces pole (divAt P arr (cutD f) (cutD g)) (dBreaks P neg0 f g) from rfl, hF, Option.bind_some, h.diracs, d1, Option.bind_some, hdd, r1]

end Conv
end Pacal
