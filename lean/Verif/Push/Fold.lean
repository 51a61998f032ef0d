import Verif.Push.Shift
import Mathlib.Analysis.Calculus.Deriv.Comp

/-! Lemmas about `foldComp` and `foldLoop` (absolute value and square). -/

namespace Pacal
open MeasureTheory Set

/-- an even function which is increasing on `[0, ∞)`, with inverse `h` there -/
structure FoldOK (g h h' : ℝ → ℝ) : Prop where
  meas : Measurable g
  diff : ∀ x, x ≠ 0 → DifferentiableAt ℝ g x
  even : ∀ x, g (-x) = g x
  mono : StrictMonoOn g (Ici 0)
  zero : g 0 = 0
  inv : ∀ y, 0 < y → 0 < h y ∧ g (h y) = y
  deriv : ∀ y, 0 < y → HasDerivAt h (h' y) y

/-- `g` on end points -/
noncomputable def foldEnd (g : ℝ → ℝ) : Ext ℝ → Ext ℝ
  | (some (some a) : Ext ℝ) => .fin (g a)
  | _ => .pinf

@[simp] theorem foldEnd_fin (g : ℝ → ℝ) (a : ℝ) : foldEnd g (.fin a) = .fin (g a) := rfl
@[simp] theorem foldEnd_pinf (g : ℝ → ℝ) : foldEnd g .pinf = .pinf := rfl
@[simp] theorem foldEnd_ninf (g : ℝ → ℝ) : foldEnd g .ninf = .pinf := rfl

theorem ext_fin_cases {P : Ext ℝ → Prop} (h1 : P .ninf) (h2 : ∀ a, P (.fin a)) (h3 : P .pinf) : ∀ e, P e
  | none => h1
  | some none => h3
  | some (some a) => h2 a

/-- a piece of positive length -/
theorem Seg.wf_iff {s : Seg ℝ} (hs : s.isDirac = false) : s.WF ↔ s.lo < s.hi := by
  cases s <;> simp [Seg.WF, Seg.lo, Seg.hi, Seg.isDirac] at hs ⊢

/-- what is known about the image `t` of a piece -/
structure FoldImg (lo hi : Ext ℝ) (fn : ℝ → ℝ) (s t : Seg ℝ) : Prop where
  dirac : t.isDirac = s.isDirac
  lo : t.lo = lo
  hi : t.hi = hi
  fn : s.isDirac = false → t.fn = fn

theorem foldComp_right {g : ℝ → ℝ} {R L : (ℝ → ℝ) → ℝ → ℝ} {s : Seg ℝ} (hw : s.WF) (h0 : .fin 0 ≤ s.lo) :
    ∃ t, Seg.foldComp g R L s = some t ∧ FoldImg (foldEnd g s.lo) (foldEnd g s.hi) (R s.fn) s t ∧
      ∀ a m, s = .dirac a m → t = .dirac (g a) m := by
  have key : ∀ a b f, 0 ≤ a → a < b → ∃ p, Seg.foldComp.fin g R L a b f = some (.fin p (g a) (g b) (R f)) := by
    intro a b f ha hab
    rw [Seg.foldComp.fin, if_pos (Or.inl ⟨ha, lt_of_le_of_lt ha hab⟩), if_pos ha]
    split_ifs
    · exact ⟨_, rfl⟩
    · exact ⟨_, rfl⟩
  cases s with
  | fin p a b f =>
    obtain ⟨q, hq⟩ := key a b f (extFin_le.1 h0) hw
    exact ⟨_, hq, ⟨rfl, rfl, rfl, fun _ => rfl⟩, by intro _ _ h; cases h⟩
  | const a b c =>
    obtain ⟨q, hq⟩ := key a b (fun _ => c) (extFin_le.1 h0) hw
    exact ⟨_, hq, ⟨rfl, rfl, rfl, fun _ => rfl⟩, by intro _ _ h; cases h⟩
  | minf b f => exact absurd h0 (not_le_ninf 0)
  | pinf a f =>
    exact ⟨.pinf (g a) (R f), by simp only [Seg.foldComp]; rw [if_pos (extFin_le.1 h0)], ⟨rfl, rfl, rfl, fun _ => rfl⟩,
      by intro _ _ h; cases h⟩
  | dirac a m =>
    exact ⟨.dirac (g a) m, rfl, ⟨rfl, rfl, rfl, by simp [Seg.isDirac]⟩, by intro _ _ h; cases h; rfl⟩

theorem foldComp_left {g : ℝ → ℝ} {R L : (ℝ → ℝ) → ℝ → ℝ} {s : Seg ℝ} (hw : s.WF) (h0 : s.lo < .fin 0)
    (h1 : s.hi ≤ .fin 0) :
    ∃ t, Seg.foldComp g R L s = some t ∧ FoldImg (foldEnd g s.hi) (foldEnd g s.lo) (L s.fn) s t ∧
      ∀ a m, s = .dirac a m → t = .dirac (g a) m := by
  have key : ∀ a b f, a < 0 → b ≤ 0 → ∃ p, Seg.foldComp.fin g R L a b f = some (.fin p (g b) (g a) (L f)) := by
    intro a b f ha hab
    rw [Seg.foldComp.fin, if_pos (Or.inr ⟨ha, hab⟩), if_neg (not_le.2 ha)]
    split_ifs
    · exact ⟨_, rfl⟩
    · exact ⟨_, rfl⟩
  cases s with
  | fin p a b f =>
    obtain ⟨q, hq⟩ := key a b f (extFin_lt.1 h0) (extFin_le.1 h1)
    exact ⟨_, hq, ⟨rfl, rfl, rfl, fun _ => rfl⟩, by intro _ _ h; cases h⟩
  | const a b c =>
    obtain ⟨q, hq⟩ := key a b (fun _ => c) (extFin_lt.1 h0) (extFin_le.1 h1)
    exact ⟨_, hq, ⟨rfl, rfl, rfl, fun _ => rfl⟩, by intro _ _ h; cases h⟩
  | minf b f =>
    exact ⟨.pinf (g b) (L f), by simp only [Seg.foldComp]; rw [if_pos (extFin_le.1 h1)], ⟨rfl, rfl, rfl, fun _ => rfl⟩,
      by intro _ _ h; cases h⟩
  | pinf a f => exact absurd h1 (not_pinf_le 0)
  | dirac a m =>
    exact ⟨.dirac (g a) m, rfl, ⟨rfl, rfl, rfl, by simp [Seg.isDirac]⟩, by intro _ _ h; cases h; rfl⟩

namespace FoldOK
variable {g h h' : ℝ → ℝ}

theorem pos (H : FoldOK g h h') {x : ℝ} (hx : 0 < x) : 0 < g x := by
  rw [← H.zero]; exact H.mono (by simp) (by simpa using hx.le) hx

theorem abs_eq (H : FoldOK g h h') (x : ℝ) : g |x| = g x := by
  rcases abs_cases x with ⟨e, -⟩ | ⟨e, -⟩ <;> rw [e]
  exact H.even x

theorem nonneg (H : FoldOK g h h') (x : ℝ) : 0 ≤ g x := by
  rw [← H.abs_eq, ← H.zero]
  exact H.mono.monotoneOn (by simp) (by simp) (abs_nonneg x)

theorem inv_right (H : FoldOK g h h') {x : ℝ} (hx : 0 < x) : h (g x) = x := by
  obtain ⟨h1, h2⟩ := H.inv (g x) (H.pos hx)
  exact H.mono.injOn (show h (g x) ∈ Ici 0 from h1.le) (show x ∈ Ici 0 from hx.le) h2

/-- order of images of nonnegative ends -/
theorem end_lt (H : FoldOK g h h') {e : Ext ℝ} (he : .fin 0 ≤ e) {y : ℝ} (hy : 0 < y) :
    foldEnd g e < .fin y ↔ e < .fin (h y) := by
  obtain ⟨h1, h2⟩ := H.inv y hy
  revert he
  refine ext_fin_cases (P := fun e => _ → (foldEnd g e < .fin y ↔ e < .fin (h y))) ?_ ?_ ?_ e
  · intro he; exact absurd he (not_le_ninf 0)
  · intro a he
    rw [foldEnd_fin, extFin_lt, extFin_lt]
    nth_rw 1 [← h2]
    exact H.mono.lt_iff_lt (show a ∈ Ici 0 from extFin_le.1 he) (show h y ∈ Ici 0 from h1.le)
  · intro _
    rw [foldEnd_pinf]
    exact ⟨fun h => absurd h (not_lt.2 (extFin_lt_pinf _).le), fun h => absurd h (not_lt.2 (extFin_lt_pinf _).le)⟩

theorem lt_end (H : FoldOK g h h') {e : Ext ℝ} (he : .fin 0 ≤ e) {y : ℝ} (hy : 0 < y) :
    .fin y < foldEnd g e ↔ .fin (h y) < e := by
  obtain ⟨h1, h2⟩ := H.inv y hy
  revert he
  refine ext_fin_cases (P := fun e => _ → (.fin y < foldEnd g e ↔ .fin (h y) < e)) ?_ ?_ ?_ e
  · intro he; exact absurd he (not_le_ninf 0)
  · intro a he
    rw [foldEnd_fin, extFin_lt, extFin_lt]
    nth_rw 1 [← h2]
    exact H.mono.lt_iff_lt (show h y ∈ Ici 0 from h1.le) (show a ∈ Ici 0 from extFin_le.1 he)
  · intro _
    rw [foldEnd_pinf]
    exact ⟨fun _ => extFin_lt_pinf _, fun _ => extFin_lt_pinf _⟩

theorem end_nonneg (H : FoldOK g h h') (e : Ext ℝ) : .fin 0 ≤ foldEnd g e := by
  refine ext_fin_cases (P := fun e => .fin 0 ≤ foldEnd g e) ?_ ?_ ?_ e
  · exact (extFin_lt_pinf 0).le
  · intro a; exact extFin_le.2 (H.nonneg a)
  · exact (extFin_lt_pinf 0).le

/-- `e ↦ -e` on end points -/
noncomputable def negEnd : Ext ℝ → Ext ℝ
  | none => .pinf
  | some none => .ninf
  | some (some a) => .fin (-a)

theorem negEnd_fin (a : ℝ) : negEnd (.fin a) = .fin (-a) := rfl

theorem negEnd_nonneg {e : Ext ℝ} : .fin 0 ≤ negEnd e ↔ e ≤ .fin 0 := by
  refine ext_fin_cases (P := fun e => .fin 0 ≤ negEnd e ↔ e ≤ .fin 0) ?_ ?_ ?_ e
  · exact ⟨fun _ => bot_le, fun _ => (extFin_lt_pinf 0).le⟩
  · intro a; rw [negEnd_fin, extFin_le, extFin_le]; constructor <;> intro <;> linarith
  · exact ⟨fun h => absurd h (not_le_ninf 0), fun h => absurd h (not_pinf_le 0)⟩

theorem negEnd_lt {e : Ext ℝ} {x : ℝ} : negEnd e < .fin x ↔ .fin (-x) < e := by
  refine ext_fin_cases (P := fun e => negEnd e < .fin x ↔ .fin (-x) < e) ?_ ?_ ?_ e
  · exact ⟨fun h => absurd h (not_lt.2 (extFin_lt_pinf _).le), fun h => absurd h (not_lt.2 bot_le)⟩
  · intro a; rw [negEnd_fin, extFin_lt, extFin_lt]; constructor <;> intro <;> linarith
  · exact ⟨fun _ => extFin_lt_pinf _, fun _ => ninf_lt_extFin _⟩

theorem lt_negEnd {e : Ext ℝ} {x : ℝ} : .fin x < negEnd e ↔ e < .fin (-x) := by
  refine ext_fin_cases (P := fun e => .fin x < negEnd e ↔ e < .fin (-x)) ?_ ?_ ?_ e
  · exact ⟨fun _ => ninf_lt_extFin _, fun _ => extFin_lt_pinf _⟩
  · intro a; rw [negEnd_fin, extFin_lt, extFin_lt]; constructor <;> intro <;> linarith
  · exact ⟨fun h => absurd h (not_lt.2 bot_le), fun h => absurd h (not_lt.2 (extFin_lt_pinf _).le)⟩

theorem negEnd_le {e e' : Ext ℝ} (h : e ≤ e') : negEnd e' ≤ negEnd e := by
  revert h
  refine ext_fin_cases (P := fun e => e ≤ e' → negEnd e' ≤ negEnd e) (fun _ => ext_le_pinf _) ?_ ?_ e
  · intro a
    refine ext_fin_cases (P := fun e' => .fin a ≤ e' → negEnd e' ≤ negEnd (.fin a)) ?_ ?_ ?_ e'
    · intro h; exact absurd h (not_le_ninf _)
    · intro b h; rw [negEnd_fin, negEnd_fin, extFin_le]; have := extFin_le.1 h; linarith
    · intro _; exact bot_le
  · refine ext_fin_cases (P := fun e' => .pinf ≤ e' → negEnd e' ≤ negEnd .pinf) ?_ ?_ ?_ e'
    · intro h; exact absurd h not_pinf_le_ninf
    · intro b h; exact absurd h (not_pinf_le _)
    · intro _; exact le_rfl

theorem foldEnd_neg (H : FoldOK g h h') (e : Ext ℝ) : foldEnd g (negEnd e) = foldEnd g e := by
  refine ext_fin_cases (P := fun e => foldEnd g (negEnd e) = foldEnd g e) rfl ?_ rfl e
  intro a; rw [negEnd_fin, foldEnd_fin, foldEnd_fin, H.even]

theorem end_mono (H : FoldOK g h h') {e e' : Ext ℝ} (h0 : .fin 0 ≤ e) (hle : e ≤ e') : foldEnd g e ≤ foldEnd g e' := by
  by_contra hc
  have hc := not_le.1 hc
  revert hc hle h0
  refine ext_fin_cases (P := fun e => _ → e ≤ e' → foldEnd g e' < foldEnd g e → False) ?_ ?_ ?_ e
  · intro h0; exact absurd h0 (not_le_ninf _)
  · intro a h0
    refine ext_fin_cases (P := fun e' => .fin a ≤ e' → foldEnd g e' < foldEnd g (.fin a) → False) ?_ ?_ ?_ e'
    · intro h; exact absurd h (not_le_ninf _)
    · intro b h1 h2
      have h0 := extFin_le.1 h0
      have h1 := extFin_le.1 h1
      have := H.mono.monotoneOn (show a ∈ Ici 0 from h0) (show b ∈ Ici 0 from h0.trans h1) h1
      exact absurd (extFin_lt.1 h2) (not_lt.2 this)
    · intro _ h; exact absurd h (not_lt.2 (extFin_lt_pinf _).le)
  · intro h0
    refine ext_fin_cases (P := fun e' => .pinf ≤ e' → foldEnd g e' < foldEnd g .pinf → False) ?_ ?_ ?_ e'
    · intro h; exact absurd h not_pinf_le_ninf
    · intro b h; exact absurd h (not_pinf_le _)
    · intro _ h; exact absurd h (lt_irrefl _)

theorem end_strict (H : FoldOK g h h') {e e' : Ext ℝ} (h0 : .fin 0 ≤ e) (hlt : e < e') : foldEnd g e < foldEnd g e' := by
  revert hlt h0
  refine ext_fin_cases (P := fun e => _ → e < e' → foldEnd g e < foldEnd g e') ?_ ?_ ?_ e
  · intro h0; exact absurd h0 (not_le_ninf _)
  · intro a h0
    refine ext_fin_cases (P := fun e' => .fin a < e' → foldEnd g (.fin a) < foldEnd g e') ?_ ?_ ?_ e'
    · intro h; exact absurd h (not_lt.2 bot_le)
    · intro b h1
      have h0 := extFin_le.1 h0
      have h1 := extFin_lt.1 h1
      exact extFin_lt.2 (H.mono (show a ∈ Ici 0 from h0) (show b ∈ Ici 0 from h0.trans h1.le) h1)
    · intro _; exact extFin_lt_pinf _
  · intro _ h
    exact absurd h (not_lt.2 (ext_le_pinf _))

variable {s t : Seg ℝ}

/-- image of a piece right of 0 -/
theorem image_right (H : FoldOK g h h') {R : (ℝ → ℝ) → ℝ → ℝ} (hR : ∀ f y, 0 < y → R f y = f (h y) * |h' y|)
    (hs : s.isDirac = false) (h0 : .fin 0 ≤ s.lo) (hhi : .fin 0 ≤ s.hi)
    (I : FoldImg (foldEnd g s.lo) (foldEnd g s.hi) (R s.fn) s t) : ImageOf s t g h h' := by
  have hpos : ∀ y ∈ t.inner, 0 < y := by
    intro y hy
    have := hy.1
    rw [I.lo] at this
    exact extFin_lt.1 (lt_of_le_of_lt (H.end_nonneg _) this)
  have hmem : ∀ y, 0 < y → (y ∈ t.inner ↔ h y ∈ s.inner) := by
    intro y hy
    simp only [Seg.inner, mem_ofPred_eq, I.lo, I.hi, H.end_lt h0 hy, H.lt_end hhi hy]
  have hx0 : ∀ x ∈ s.inner, 0 < x := fun x hx => extFin_lt.1 (lt_of_le_of_lt h0 hx.1)
  refine ⟨H.meas, fun x hx => (H.diff x (hx0 x hx).ne').differentiableWithinAt,
    fun y hy => (H.deriv y (hpos y hy)).hasDerivWithinAt, fun y hy => ⟨(hmem y (hpos y hy)).1 hy, (H.inv y (hpos y hy)).2⟩,
    fun x hx => ?_, fun y hy => by rw [I.fn hs, hR _ _ (hpos y hy)]⟩
  have e := H.inv_right (hx0 x hx)
  exact ⟨(hmem _ (H.pos (hx0 x hx))).2 (by rw [e]; exact hx), e⟩

/-- image of a piece left of 0 -/
theorem image_left (H : FoldOK g h h') {L : (ℝ → ℝ) → ℝ → ℝ} (hL : ∀ f y, 0 < y → L f y = f (-h y) * |h' y|)
    (hs : s.isDirac = false) (h0 : s.lo ≤ .fin 0) (hhi : s.hi ≤ .fin 0)
    (I : FoldImg (foldEnd g s.hi) (foldEnd g s.lo) (L s.fn) s t) :
    ImageOf s t g (fun y => -h y) (fun y => -h' y) := by
  have hpos : ∀ y ∈ t.inner, 0 < y := by
    intro y hy
    have := hy.1
    rw [I.lo] at this
    exact extFin_lt.1 (lt_of_le_of_lt (H.end_nonneg _) this)
  have hmem : ∀ y, 0 < y → (y ∈ t.inner ↔ -h y ∈ s.inner) := by
    intro y hy
    simp only [Seg.inner, mem_ofPred_eq, I.lo, I.hi]
    rw [← H.foldEnd_neg s.hi, ← H.foldEnd_neg s.lo, H.end_lt (negEnd_nonneg.2 hhi) hy,
      H.lt_end (negEnd_nonneg.2 h0) hy, negEnd_lt, lt_negEnd]
    exact and_comm
  have hx0 : ∀ x ∈ s.inner, x < 0 := fun x hx => extFin_lt.1 (lt_of_lt_of_le hx.2 hhi)
  refine ⟨H.meas, fun x hx => (H.diff x (hx0 x hx).ne).differentiableWithinAt,
    fun y hy => (H.deriv y (hpos y hy)).neg.hasDerivWithinAt,
    fun y hy => ⟨(hmem y (hpos y hy)).1 hy, ?_⟩, fun x hx => ?_, fun y hy => by rw [I.fn hs, hL _ _ (hpos y hy), abs_neg]⟩
  · show g (-h y) = y
    rw [H.even]; exact (H.inv y (hpos y hy)).2
  · have hx' : 0 < -x := by have := hx0 x hx; linarith
    have e := H.inv_right hx'
    rw [H.even] at e
    have e' : -h (g x) = x := by rw [e]; ring
    exact ⟨(hmem _ (by rw [← H.even]; exact H.pos hx')).2 (by rw [e']; exact hx), e'⟩

end FoldOK

/-- the transformation of one piece with all its properties -/
structure FoldPiece (g : ℝ → ℝ) (s t : Seg ℝ) : Prop where
  wf : t.WF
  dens : t.Dens
  law : t.law = s.law.map g
  dirac : t.isDirac = s.isDirac
  atom : ∀ a m, s = .dirac a m → t = .dirac (g a) m

theorem fold_piece_right {g h h' : ℝ → ℝ} (H : FoldOK g h h') {R L : (ℝ → ℝ) → ℝ → ℝ}
    (hR : ∀ f y, 0 < y → R f y = f (h y) * |h' y|) {s : Seg ℝ} (hw : s.WF) (hd : s.Dens) (h0 : .fin 0 ≤ s.lo) :
    ∃ t, Seg.foldComp g R L s = some t ∧ FoldPiece g s t ∧ t.lo = foldEnd g s.lo ∧ t.hi = foldEnd g s.hi := by
  obtain ⟨t, h1, I, h3⟩ := foldComp_right (g := g) (R := R) (L := L) hw h0
  refine ⟨t, h1, ?_, I.lo, I.hi⟩
  cases hs : s.isDirac
  · have ht : t.isDirac = false := I.dirac.trans hs
    have hlt := (Seg.wf_iff hs).1 hw
    have hhi : .fin 0 ≤ s.hi := h0.trans hlt.le
    have M := H.image_right hR hs h0 hhi I
    refine ⟨?_, M.dens hs ht hd, M.law hs ht, I.dirac, h3⟩
    rw [Seg.wf_iff ht, I.lo, I.hi]
    exact H.end_strict h0 hlt
  · cases s <;> simp [Seg.isDirac] at hs
    rename_i a m
    obtain rfl := h3 a m rfl
    exact ⟨trivial, hd, dirac_law_map H.meas a m, rfl, h3⟩

theorem fold_piece_left {g h h' : ℝ → ℝ} (H : FoldOK g h h') {R L : (ℝ → ℝ) → ℝ → ℝ}
    (hL : ∀ f y, 0 < y → L f y = f (-h y) * |h' y|) {s : Seg ℝ} (hw : s.WF) (hd : s.Dens) (h0 : s.lo < .fin 0)
    (h1 : s.hi ≤ .fin 0) :
    ∃ t, Seg.foldComp g R L s = some t ∧ FoldPiece g s t ∧ t.lo = foldEnd g s.hi ∧ t.hi = foldEnd g s.lo := by
  obtain ⟨t, h2, I, h3⟩ := foldComp_left (g := g) (R := R) (L := L) hw h0 h1
  refine ⟨t, h2, ?_, I.lo, I.hi⟩
  cases hs : s.isDirac
  · have ht : t.isDirac = false := I.dirac.trans hs
    have hlt := (Seg.wf_iff hs).1 hw
    have M := H.image_left hL hs h0.le h1 I
    refine ⟨?_, M.dens hs ht hd, M.law hs ht, I.dirac, h3⟩
    rw [Seg.wf_iff ht, I.lo, I.hi, ← H.foldEnd_neg s.hi, ← H.foldEnd_neg s.lo]
    refine H.end_strict (FoldOK.negEnd_nonneg.2 h1) (lt_of_le_of_ne (FoldOK.negEnd_le hlt.le) ?_)
    intro hc
    have : FoldOK.negEnd (FoldOK.negEnd s.hi) = FoldOK.negEnd (FoldOK.negEnd s.lo) := by rw [hc]
    have nn : ∀ e, FoldOK.negEnd (FoldOK.negEnd e) = e := by
      refine ext_fin_cases rfl (fun a => ?_) rfl
      rw [FoldOK.negEnd_fin, FoldOK.negEnd_fin, neg_neg]
    rw [nn, nn] at this
    exact hlt.ne this.symm
  · cases s <;> simp [Seg.isDirac] at hs
    rename_i a m
    obtain rfl := h3 a m rfl
    exact ⟨trivial, hd, dirac_law_map H.meas a m, rfl, h3⟩

/-- the loop separates into the two accumulations -/
theorem foldLoop_eq (eps : ℝ) (T : Seg ℝ → Option (Seg ℝ)) (T' : Seg ℝ → Seg ℝ) :
    ∀ (l : PF ℝ) (L R : PF ℝ), (∀ s ∈ l, T s = some (T' s)) → ∀ {L' R' : PF ℝ},
      PF.addAll eps L ((l.filter fun s => decide (s.lo ≥ .fin 0)).map T') = some L' →
      PF.addAll eps R ((l.filter fun s => !decide (s.lo ≥ .fin 0)).map T') = some R' →
      PF.foldLoop eps T l (L, R) = some (L', R')
  | [], L, R, _, L', R', h1, h2 => by
    simp only [List.filter_nil, List.map_nil, PF.addAll, Option.some.injEq] at h1 h2
    simp [PF.foldLoop, h1, h2]
  | s :: l, L, R, hT, L', R', h1, h2 => by
    rw [PF.foldLoop, hT s (by simp), Option.bind_some]
    by_cases hs : s.lo ≥ .fin 0
    · rw [List.filter_cons_of_pos (by simpa using hs), List.map_cons, PF.addAll, Option.bind_eq_some_iff] at h1
      rw [List.filter_cons_of_neg (by simpa using hs)] at h2
      obtain ⟨L₁, h3, h4⟩ := h1
      rw [if_pos hs, h3, Option.bind_some]
      exact foldLoop_eq eps T T' l L₁ R (fun t ht => hT t (by simp [ht])) h4 h2
    · rw [List.filter_cons_of_neg (by simpa using hs)] at h1
      rw [List.filter_cons_of_pos (by simpa using hs), List.map_cons, PF.addAll, Option.bind_eq_some_iff] at h2
      obtain ⟨R₁, h3, h4⟩ := h2
      rw [if_neg hs, h3, Option.bind_some]
      exact foldLoop_eq eps T T' l L R₁ (fun t ht => hT t (by simp [ht])) h1 h4

end Pacal
