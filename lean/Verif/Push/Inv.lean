import Verif.Push.CompLemmas

/-! Helper lemmas about the reciprocal of a random variable. -/

namespace Pacal
open MeasureTheory Set

theorem ext_between {a b : Ext ℝ} (h : a < b) : ∃ x : ℝ, a < .fin x ∧ .fin x < b := by
  rcases ext_trich a with rfl | ⟨u, rfl⟩ | rfl
  · rcases ext_trich b with rfl | ⟨v, rfl⟩ | rfl
    · exact absurd h (lt_irrefl _)
    · exact ⟨v - 1, ninf_lt_extFin _, extFin_lt.2 (by linarith)⟩
    · exact ⟨0, ninf_lt_extFin _, extFin_lt_pinf _⟩
  · rcases ext_trich b with rfl | ⟨v, rfl⟩ | rfl
    · exact absurd h (not_lt_ninf _)
    · have h := extFin_lt.1 h
      exact ⟨(u + v) / 2, extFin_lt.2 (by linarith), extFin_lt.2 (by linarith)⟩
    · exact ⟨u + 1, extFin_lt.2 (by linarith), extFin_lt_pinf _⟩
  · exact absurd h (not_pinf_lt _)

theorem inner_ordered {s t : Seg ℝ} (h : ∀ x, x ∈ s.inner → x ∉ t.inner) (hs : s.lo < s.hi) (ht : t.lo < t.hi) :
    s.hi ≤ t.lo ∨ t.hi ≤ s.lo := by
  by_contra hc
  rw [not_or, not_le, not_le] at hc
  obtain ⟨x, h1, h2⟩ := ext_between (a := max s.lo t.lo) (b := min s.hi t.hi)
    (max_lt (lt_min hs hc.2) (lt_min hc.1 ht))
  rw [max_lt_iff] at h1
  rw [lt_min_iff] at h2
  exact h x ⟨h1.1, h2.1⟩ ⟨h1.2, h2.2⟩

/-- what the reciprocal of a piece must be -/
structure InvPiece (s t : Seg ℝ) : Prop where
  dirac : t.isDirac = false
  wf : t.WF
  inner : ∀ y, y ∈ t.inner ↔ y ≠ 0 ∧ 1 / y ∈ s.inner
  fn : ∀ y, t.fn y = s.fn (1 / y) * |1 / y ^ 2|

theorem recip_pos {a y : ℝ} (ha : 0 < a) : a < 1 / y ↔ 0 < y ∧ y < 1 / a := by
  constructor
  · intro h
    have hy : 0 < y := one_div_pos.1 (ha.trans h)
    exact ⟨hy, by rw [lt_div_iff₀ hy] at h; rw [lt_div_iff₀ ha]; linarith⟩
  · rintro ⟨hy, h⟩
    rw [lt_div_iff₀ hy]; rw [lt_div_iff₀ ha] at h; linarith

theorem recip_pos' {b y : ℝ} (hb : 0 < b) (hy : 0 < y) : 1 / y < b ↔ 1 / b < y := by
  rw [div_lt_iff₀ hy, div_lt_iff₀ hb, mul_comm]

theorem recip_neg {b y : ℝ} (hb : b < 0) : 1 / y < b ↔ y < 0 ∧ 1 / b < y := by
  have := recip_pos (a := -b) (y := -y) (by linarith)
  rw [div_neg, div_neg, neg_lt_neg_iff, neg_lt_neg_iff, neg_pos] at this
  exact this

theorem recip_neg' {a y : ℝ} (ha : a < 0) (hy : y < 0) : a < 1 / y ↔ y < 1 / a := by
  have := recip_pos' (b := -a) (y := -y) (by linarith) (by linarith)
  rw [div_neg, div_neg, neg_lt_neg_iff, neg_lt_neg_iff] at this
  exact this

theorem mem_inner_fin {p : Pole} {a b : ℝ} {f : ℝ → ℝ} {x : ℝ} : x ∈ (Seg.fin p a b f).inner ↔ a < x ∧ x < b := by
  simp only [Seg.inner, mem_ofPred_eq, Seg.lo, Seg.hi, extFin_lt]

theorem mem_inner_const {a b c : ℝ} {x : ℝ} : x ∈ (Seg.const a b c).inner ↔ a < x ∧ x < b := by
  simp only [Seg.inner, mem_ofPred_eq, Seg.lo, Seg.hi, extFin_lt]

theorem mem_inner_minf {b : ℝ} {f : ℝ → ℝ} {x : ℝ} : x ∈ (Seg.minf b f).inner ↔ x < b := by
  simp only [Seg.inner, mem_ofPred_eq, Seg.lo, Seg.hi, extFin_lt]
  exact ⟨fun h => h.2, fun h => ⟨ninf_lt_extFin _, h⟩⟩

theorem mem_inner_pinf {a : ℝ} {f : ℝ → ℝ} {x : ℝ} : x ∈ (Seg.pinf a f).inner ↔ a < x := by
  simp only [Seg.inner, mem_ofPred_eq, Seg.lo, Seg.hi, extFin_lt]
  exact ⟨fun h => h.1, fun h => ⟨h, extFin_lt_pinf _⟩⟩

theorem finInverse_piece {s : Seg ℝ} {a b : ℝ} {f : ℝ → ℝ} (hab : a < b) (h0 : b ≤ 0 ∨ 0 ≤ a)
    (hs : ∀ x, x ∈ s.inner ↔ a < x ∧ x < b) (hf : ∀ x, s.fn x = f x) : InvPiece s (Seg.finInverse a b f) := by
  unfold Seg.finInverse
  by_cases ha : a = 0
  · subst ha
    have hb : 0 < b := hab
    rw [if_pos rfl, if_neg (not_lt.2 (one_div_pos.2 hb).le)]
    refine ⟨rfl, trivial, fun y => ?_, fun y => by rw [hf]; rfl⟩
    rw [mem_inner_pinf, hs]
    constructor
    · intro h
      have hy : 0 < y := (one_div_pos.2 hb).trans h
      exact ⟨hy.ne', one_div_pos.2 hy, (recip_pos' hb hy).2 h⟩
    · rintro ⟨-, h1, h2⟩
      exact (recip_pos' hb (one_div_pos.1 h1)).1 h2
  rw [if_neg ha]
  by_cases hb : b = 0
  · subst hb
    have ha' : a < 0 := hab
    rw [if_pos rfl, if_neg (not_lt.2 (one_div_neg.2 ha').le)]
    refine ⟨rfl, trivial, fun y => ?_, fun y => by rw [hf]; rfl⟩
    rw [mem_inner_minf, hs]
    constructor
    · intro h
      have hy : y < 0 := h.trans (one_div_neg.2 ha')
      exact ⟨hy.ne, (recip_neg' ha' hy).2 h, one_div_neg.2 hy⟩
    · rintro ⟨-, h1, h2⟩
      exact (recip_neg' ha' (one_div_neg.1 h2)).1 h1
  rw [if_neg hb]
  have hlt : 1 / b < 1 / a := by
    rcases h0 with h | h
    · exact one_div_lt_one_div_of_neg_of_lt (lt_of_le_of_ne h hb) hab
    · exact one_div_lt_one_div_of_lt (lt_of_le_of_ne h (Ne.symm ha)) hab
  rw [if_neg (not_le.2 hlt)]
  refine ⟨rfl, hlt, fun y => ?_, fun y => by rw [hf]; rfl⟩
  rw [mem_inner_fin, hs]
  rcases h0 with h | h
  · have hb' : b < 0 := lt_of_le_of_ne h hb
    have ha' : a < 0 := hab.trans hb'
    constructor
    · rintro ⟨h1, h2⟩
      have hy : y < 0 := h2.trans (one_div_neg.2 ha')
      exact ⟨hy.ne, (recip_neg' ha' hy).2 h2, (recip_neg hb').2 ⟨hy, h1⟩⟩
    · rintro ⟨-, h1, h2⟩
      obtain ⟨hy, h3⟩ := (recip_neg hb').1 h2
      exact ⟨h3, (recip_neg' ha' hy).1 h1⟩
  · have ha' : 0 < a := lt_of_le_of_ne h (Ne.symm ha)
    have hb' : 0 < b := ha'.trans hab
    constructor
    · rintro ⟨h1, h2⟩
      have hy : 0 < y := (one_div_pos.2 hb').trans h1
      exact ⟨hy.ne', (recip_pos ha').2 ⟨hy, h2⟩, (recip_pos' hb' hy).2 h1⟩
    · rintro ⟨-, h1, h2⟩
      obtain ⟨hy, h3⟩ := (recip_pos ha').1 h1
      exact ⟨(recip_pos' hb' hy).1 h2, h3⟩

theorem probInverse_piece {pole : Bool} {s : Seg ℝ} (hw : s.WF) (hs : s.isDirac = false)
    (h0 : s.hi ≤ .fin 0 ∨ .fin 0 ≤ s.lo) : ∃ t, Seg.probInverse pole s = some t ∧ InvPiece s t := by
  cases s with
  | fin p a b f =>
    refine ⟨_, rfl, finInverse_piece hw ?_ (fun x => mem_inner_fin) fun x => rfl⟩
    simpa only [Seg.lo, Seg.hi, extFin_le] using h0
  | const a b c =>
    refine ⟨_, rfl, finInverse_piece hw ?_ (fun x => mem_inner_const) fun x => rfl⟩
    simpa only [Seg.lo, Seg.hi, extFin_le] using h0
  | minf b f =>
    have hb : b ≤ 0 := by
      rcases h0 with h | h
      · exact extFin_le.1 h
      · exact absurd h (not_le_ninf _)
    rw [Seg.probInverse]
    rcases hb.eq_or_lt with rfl | hb
    · refine ⟨_, if_pos rfl, rfl, trivial, fun y => ?_, fun y => rfl⟩
      rw [mem_inner_minf, mem_inner_minf, one_div_neg]
      exact ⟨fun h => ⟨h.ne, h⟩, fun h => h.2⟩
    · refine ⟨.fin (if pole then .left else .none) (1 / b) 0 (invFn f), ?_, rfl, one_div_neg.2 hb, fun y => ?_, fun y => rfl⟩
      · rw [if_neg hb.ne, if_neg (not_le.2 (one_div_neg.2 hb))]
      · rw [mem_inner_fin, mem_inner_minf, recip_neg hb]
        exact ⟨fun h => ⟨h.2.ne, h.2, h.1⟩, fun h => ⟨h.2.2, h.2.1⟩⟩
  | pinf a f =>
    have ha : 0 ≤ a := by
      rcases h0 with h | h
      · exact absurd h (not_pinf_le _)
      · exact extFin_le.1 h
    rw [Seg.probInverse]
    rcases ha.eq_or_lt with rfl | ha
    · refine ⟨_, if_pos rfl, rfl, trivial, fun y => ?_, fun y => rfl⟩
      rw [mem_inner_pinf, mem_inner_pinf, one_div_pos]
      exact ⟨fun h => ⟨h.ne', h⟩, fun h => h.2⟩
    · refine ⟨.fin .none 0 (1 / a) (invFn f), ?_, rfl, one_div_pos.2 ha, fun y => ?_, fun y => rfl⟩
      · rw [if_neg ha.ne', if_neg (not_le.2 (one_div_pos.2 ha))]
      · rw [mem_inner_fin, mem_inner_pinf, recip_pos ha]
        exact ⟨fun h => ⟨h.1.ne', h.1, h.2⟩, fun h => ⟨h.2.1, h.2.2⟩⟩
  | dirac a m => simp [Seg.isDirac] at hs

theorem InvPiece.image {s t : Seg ℝ} (H : InvPiece s t) (h0 : s.hi ≤ .fin 0 ∨ .fin 0 ≤ s.lo) :
    ImageOf s t (fun x => 1 / x) (fun x => 1 / x) (fun y => -(1 / y ^ 2)) where
  meas := by fun_prop
  diff := by
    intro x hx
    have hx0 : x ≠ 0 := by
      rintro rfl
      rcases h0 with h | h
      · exact absurd hx.2 (not_lt.2 h)
      · exact absurd hx.1 (not_lt.2 h)
    exact ((hasDerivAt_inv hx0).differentiableAt.congr_of_eventuallyEq (by simp)).differentiableWithinAt
  deriv := by
    intro y hy
    have := (hasDerivAt_inv ((H.inner y).1 hy).1).hasDerivWithinAt (s := t.inner)
    simpa only [one_div] using this
  left := by
    intro y hy
    exact ⟨((H.inner y).1 hy).2, one_div_one_div y⟩
  right := by
    intro x hx
    have hx0 : x ≠ 0 := by
      rintro rfl
      rcases h0 with h | h
      · exact absurd hx.2 (not_lt.2 h)
      · exact absurd hx.1 (not_lt.2 h)
    exact ⟨(H.inner _).2 ⟨one_div_ne_zero hx0, by rwa [one_div_one_div]⟩, one_div_one_div x⟩
  fn := by
    intro y _
    rw [H.fn, abs_neg]

theorem inv_all {eps : ℝ} (he : 0 ≤ eps) {l : PF ℝ} {pole : Bool} (hl : PF.WF eps l) (hd : PF.Dens l)
    (hc : ∀ s ∈ l, s.isDirac = false) :
    ∃ r, PF.copyProbInverse eps l pole = some r ∧ PF.WF eps r ∧ PF.Dens r ∧ PF.law r = (PF.law l).map (fun x => 1 / x) ∧
      ∀ s ∈ r, s.isDirac = false := by
  have hps : [(0 : ℝ)].Pairwise (· < ·) := by simp
  obtain ⟨l₁, e1, hw1, hd1, hlaw1⟩ := C04_law he _ hps l hl hd
  obtain ⟨l₂, e2, -, -, hdir, -, hcut⟩ := C04_split he _ hps l hl
  obtain rfl : l₁ = l₂ := by rw [e1] at e2; exact Option.some.inj e2
  have hn : ∀ s ∈ l₁, s.isDirac = false := by
    intro s hs
    cases h : s.isDirac
    · rfl
    · cases s <;> simp [Seg.isDirac] at h
      rename_i a m
      rw [← mem_diracs, hdir, mem_diracs] at hs
      have := hc _ hs
      simp [Seg.isDirac] at this
  have hside : ∀ s ∈ l₁, s.hi ≤ .fin 0 ∨ .fin 0 ≤ s.lo := by
    intro s hs
    have := hcut 0 (by simp) s hs
    rw [not_and_or, not_lt, not_lt] at this
    exact this.symm
  have hT : ∀ s, ∃ t, s ∈ l₁ → Seg.probInverse pole s = some t ∧ InvPiece s t := by
    intro s
    by_cases hs : s ∈ l₁
    · obtain ⟨t, ht⟩ := probInverse_piece (pole := pole) (hw1.seg s hs) (hn s hs) (hside s hs)
      exact ⟨t, fun _ => ht⟩
    · exact ⟨s, fun h => absurd h hs⟩
  choose T' hT' using hT
  obtain ⟨r, r1, r2, r3, r4, r5⟩ := fold_half he (l := l₁) (T' := T') (g := fun x => 1 / x) (by fun_prop) (by
      intro s hs
      have I := (hT' s hs).2
      have J := I.image (hside s hs)
      refine ⟨I.wf, J.dens (hn s hs) I.dirac (hd1 s hs), J.law (hn s hs) I.dirac, I.dirac.trans (hn s hs).symm, ?_⟩
      rintro a m rfl
      have := hn _ hs
      simp [Seg.isDirac] at this) (by
      refine hw1.sorted.imp_of_mem fun {s t} h1 h2 hst => ?_
      have I := (hT' s h1).2
      have J := (hT' t h2).2
      refine inner_ordered (fun x hx hx' => ?_) ((Seg.wf_iff I.dirac).1 I.wf) ((Seg.wf_iff J.dirac).1 J.wf)
      have h3 := ((I.inner x).1 hx).2
      have h4 := ((J.inner x).1 hx').2
      exact absurd (h3.2.trans_le hst.1) (not_lt.2 h4.1.le)) (.of_continuous hn)
  refine ⟨r, ?_, r2, r3, by rw [r4, hlaw1], ?_⟩
  · rw [PF.copyProbInverse, e1, Option.bind_some, PF.mapLoop, mapAll_eq fun s hs => (hT' s hs).1, Option.bind_some, r1]
  · intro s hs
    cases h : s.isDirac
    · rfl
    · cases s <;> simp [Seg.isDirac] at h
      obtain ⟨a, m, h1, -⟩ := r5 _ _ hs
      have := hn _ h1
      simp [Seg.isDirac] at this

end Pacal
