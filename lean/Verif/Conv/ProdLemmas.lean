import Verif.Conv.ProdSpec
import Verif.Conv.MinMaxLemmas
import Verif.Conv.SumDensity

/-! The product of two distributions: everything put together. -/

namespace Pacal

/-- the points in the distributions of a product where something may change: the ends of the pieces and -1, 0, 1 -/
def PF.marks (l : PF ℝ) : Set ℝ := l.ends ∪ {-1, 0, 1}

/-- different products of marks differ by more than the relative tolerance `eps` -/
def ApartMul (eps : ℝ) (f g : PF ℝ) : Prop :=
  ∀ a ∈ f.marks, ∀ b ∈ g.marks, ∀ a' ∈ f.marks, ∀ b' ∈ g.marks, a * b ≠ a' * b' → eps * max 1 |a * b| < |a * b - a' * b'|

/-- there is an atom with positive probability -/
def PF.HasAtom (l : PF ℝ) : Prop := ∃ a m, 0 < m ∧ Seg.dirac a m ∈ l

namespace Conv
open MeasureTheory Set Transform Breaks

/-- the hypotheses on the arguments of a product -/
structure ProdArgs (P : Par) (f g : PF ℝ) : Prop where
  eps : 0 ≤ P.eps
  fne : f ≠ []
  gne : g ≠ []
  fwf : PF.WF P.eps f
  gwf : PF.WF P.eps g
  apart : ApartMul P.eps f g
  alive : (PF.law f {0}ᶜ ≠ 0 ∧ PF.law g {0}ᶜ ≠ 0) ∨ (f.HasAtom ∧ g.HasAtom)

/-- the function split at -1, 0, 1 -/
noncomputable def cut3 (f : PF ℝ) : PF ℝ := f.flatMap (PF.splitSeg prodPoints)

theorem prodPoints_sorted : prodPoints.Pairwise (· < ·) := by
  unfold prodPoints
  norm_num

variable {P : Par} {f g : PF ℝ} {eps : ℝ}

theorem cut3_wf (hf : PF.WF eps f) : PF.WF eps (cut3 f) := split_wf prodPoints_sorted hf

theorem cut3_eq (he : 0 ≤ eps) (hf : PF.WF eps f) : PF.splitByPoints eps f prodPoints = some (cut3 f) :=
  splitByPoints_eq he prodPoints_sorted hf

theorem cut3_law (he : 0 ≤ eps) (hf : PF.WF eps f) (hd : PF.Dens f) :
    PF.Dens (cut3 f) ∧ PF.law (cut3 f) = PF.law f ∧ ∀ x, PF.val (cut3 f) x = f.val x := by
  obtain ⟨f', f1, f2, f3, f4⟩ := C04_law he _ prodPoints_sorted f hf hd
  obtain rfl : f' = cut3 f := by rw [cut3_eq he hf] at f1; exact (Option.some.inj f1).symm
  exact ⟨f3, f4, fun x => (split_val prodPoints_sorted hf x).1⟩

theorem cut3_cut (hf : PF.WF eps f) {s : Seg ℝ} (hs : s ∈ cut3 f) : CutSeg s := by
  obtain ⟨s', hs', hts⟩ := List.mem_flatMap.1 hs
  intro p hp
  exact (splitSeg_ok eps prodPoints_sorted (hf.seg s' hs')).cut p hp s hts

theorem cut3_dirac (hf : PF.WF eps f) {a m : ℝ} : Seg.dirac a m ∈ cut3 f ↔ Seg.dirac a m ∈ f := by
  have h := split_diracs prodPoints_sorted hf
  have : ∀ l : PF ℝ, Seg.dirac a m ∈ l ↔ Seg.dirac a m ∈ PF.diracs l := by
    intro l; simp [PF.diracs, Seg.isDirac]
  rw [this (cut3 f), this f, ← h]; rfl

theorem cut3_atoms (hf : PF.WF eps f) : (cut3 f).atomsOf = f.atomsOf := by
  have h := split_diracs prodPoints_sorted hf
  have : ∀ l : PF ℝ, l.atomsOf = (PF.diracs l).atomsOf := by
    intro l
    unfold PF.atomsOf PF.diracs
    rw [List.filterMap_filter]
    congr 1
    funext s
    cases s <;> simp [Seg.isDirac]
  rw [this (cut3 f), this f, ← h]; rfl

theorem cut3_ends (hf : PF.WF eps f) {x : ℝ} (h : x ∈ PF.ends (cut3 f)) : x ∈ f.marks := by
  obtain ⟨t, ht, h⟩ := h
  obtain ⟨s, hs, hts⟩ := List.mem_flatMap.1 ht
  have ok := splitSeg_ok eps prodPoints_sorted (hf.seg s hs)
  have key : ∀ p ∈ prodPoints, Ext.fin p = Ext.fin x → x ∈ f.marks := by
    intro p hp e
    obtain rfl : p = x := by simpa [Ext.fin] using e
    exact .inr (by simpa [prodPoints] using hp)
  rcases h with h | h
  · rcases (ok.ends t hts).1 with h' | ⟨p, hp, h'⟩
    · exact .inl ⟨s, hs, .inl (by rw [← h', h])⟩
    · exact key p hp (h'.symm.trans h)
  · rcases (ok.ends t hts).2 with h' | ⟨p, hp, h'⟩
    · exact .inl ⟨s, hs, .inr (by rw [← h', h])⟩
    · exact key p hp (h'.symm.trans h)

theorem splitSeg_ne (s : Seg ℝ) : PF.splitSeg prodPoints s ≠ [] := by
  have h1 : ∀ (pole : Pole) (a₀ b₀ : ℝ) (F : ℝ → ℝ) (ps : List ℝ) (x : ℝ), PF.splitFin pole a₀ b₀ F x ps ≠ [] := by
    intro pole a₀ b₀ F ps x; cases ps <;> simp [PF.splitFin]
  have h2 : ∀ (F : ℝ → ℝ) (ps : List ℝ) (x : ℝ), PF.splitPInf F x ps ≠ [] := by
    intro F ps x; cases ps <;> simp [PF.splitPInf]
  cases s with
  | fin => exact h1 _ _ _ _ _ _
  | const => exact h1 _ _ _ _ _ _
  | minf b F => rw [PF.splitSeg]; split <;> simp
  | pinf => exact h2 _ _ _
  | dirac => simp [PF.splitSeg]

/-! ### break points -/

/-- the products of break points before sorting -/
noncomputable def prodTable (f g : PF ℝ) : List (Ext ℝ) :=
  (PF.getBreaks f).flatMap fun a => (PF.getBreaks g).filterMap fun b => (fmul a b : Option EReal)

theorem mem_prodTable {c : Ext ℝ} : c ∈ prodTable f g ↔ ∃ a ∈ PF.getBreaks f, ∃ b ∈ PF.getBreaks g, fmul a b = some c := by
  exact List.mem_flatMap.trans (exists_congr fun _ => and_congr_right fun _ => List.mem_filterMap)

theorem fmul_finite {a b : EReal} {c : ℝ} (h : fmul a b = some (c : EReal)) :
    (∃ p q : ℝ, a = p ∧ b = q ∧ c = p * q) := by
  unfold fmul at h
  split_ifs at h with hn
  push Not at hn
  simp only [Option.some.injEq] at h
  obtain ⟨h1, h2⟩ := hn
  induction a using EReal.rec with
  | bot =>
    exfalso
    by_cases hb : b = 0
    · exact (h2 hb).2 rfl
    · rcases lt_or_gt_of_ne hb with hb | hb
      · rw [EReal.bot_mul_of_neg hb] at h; exact EReal.coe_ne_top _ h.symm
      · rw [EReal.bot_mul_of_pos hb] at h; exact EReal.coe_ne_bot _ h.symm
  | top =>
    exfalso
    by_cases hb : b = 0
    · exact (h2 hb).1 rfl
    · rcases lt_or_gt_of_ne hb with hb | hb
      · rw [EReal.top_mul_of_neg hb] at h; exact EReal.coe_ne_bot _ h.symm
      · rw [EReal.top_mul_of_pos hb] at h; exact EReal.coe_ne_top _ h.symm
  | coe p =>
    induction b using EReal.rec with
    | bot =>
      exfalso
      by_cases hp : p = 0
      · exact (h1 (by rw [hp]; rfl)).2 rfl
      · rcases lt_or_gt_of_ne hp with hp | hp
        · rw [EReal.coe_mul_bot_of_neg hp] at h; exact EReal.coe_ne_top _ h.symm
        · rw [EReal.coe_mul_bot_of_pos hp] at h; exact EReal.coe_ne_bot _ h.symm
    | top =>
      exfalso
      by_cases hp : p = 0
      · exact (h1 (by rw [hp]; rfl)).1 rfl
      · rcases lt_or_gt_of_ne hp with hp | hp
        · rw [EReal.coe_mul_top_of_neg hp] at h; exact EReal.coe_ne_bot _ h.symm
        · rw [EReal.coe_mul_top_of_pos hp] at h; exact EReal.coe_ne_top _ h.symm
    | coe q =>
      refine ⟨p, q, rfl, rfl, ?_⟩
      exact_mod_cast h.symm

theorem mem_breaks_ends {l : PF ℝ} {x : ℝ} (h : Ext.fin x ∈ PF.getBreaks l) : x ∈ l.ends := by
  obtain ⟨s, hs, h⟩ := mem_getBreaks.1 h
  exact ⟨s, hs, h.imp Eq.symm Eq.symm⟩

theorem prodTable_fin (hf : PF.WF eps f) (hg : PF.WF eps g) {c : ℝ} (h : Ext.fin c ∈ prodTable (cut3 f) (cut3 g)) :
    ∃ p ∈ f.marks, ∃ q ∈ g.marks, c = p * q := by
  obtain ⟨a, ha, b, hb, e⟩ := mem_prodTable.1 h
  obtain ⟨p, q, rfl, rfl, rfl⟩ := fmul_finite (show fmul a b = some ((c : ℝ) : EReal) from e)
  exact ⟨p, cut3_ends hf (mem_breaks_ends ha), q, cut3_ends hg (mem_breaks_ends hb), rfl⟩

/-- the break points of the product -/
noncomputable def pBreaks (P : Par) (f g : PF ℝ) : List (Ext ℝ) := prodBreaks P (cut3 f) (cut3 g)

theorem ProdArgs.breaks (h : ProdArgs P f g) :
    (pBreaks P f g).Pairwise (· < ·) ∧ ∀ x, x ∈ pBreaks P f g ↔ x ∈ prodTable (cut3 f) (cut3 g) := by
  obtain ⟨c1, c2, c3, -⟩ := C17_epsunique_partial P.eps (prodTable (cut3 f) (cut3 g))
  refine ⟨c1.imp fun h => h.1, fun x => ⟨c2 x, fun hx => ?_⟩⟩
  rcases c3 x hx with h1 | ⟨y, hy, hlt, a, b, rfl, rfl, hc⟩
  · exact h1
  · exfalso
    obtain ⟨p, hp, q, hq, rfl⟩ := prodTable_fin h.fwf h.gwf hx
    obtain ⟨p', hp', q', hq', rfl⟩ := prodTable_fin h.fwf h.gwf hy
    have hlt' : p' * q' < p * q := EReal.coe_lt_coe_iff.1 hlt
    have := h.apart p hp q hq p' hp' q' hq' hlt'.ne'
    rw [abs_of_pos (sub_pos.2 hlt')] at this
    linarith

theorem ProdArgs.mem (h : ProdArgs P f g) {a b : EReal} {c : EReal} (ha : (a : Ext ℝ) ∈ PF.getBreaks (cut3 f))
    (hb : (b : Ext ℝ) ∈ PF.getBreaks (cut3 g)) (e : fmul a b = some c) : (c : Ext ℝ) ∈ pBreaks P f g :=
  (h.breaks.2 _).2 (mem_prodTable.2 ⟨a, ha, b, hb, e⟩)

theorem ProdArgs.corner (h : ProdArgs P f g) {si sj : Seg ℝ} (hi' : si ∈ cut3 f) (hj : sj ∈ cut3 g) {v : EReal}
    (hv : v ∈ corners si sj) : (v : Ext ℝ) ∈ pBreaks P f g := by
  obtain ⟨e, he, f', hf', e'⟩ := mem_corners.1 hv
  refine h.mem ?_ ?_ e'
  · simp only [List.mem_cons, List.not_mem_nil, or_false] at he
    exact mem_getBreaks.2 ⟨si, hi', he⟩
  · simp only [List.mem_cons, List.not_mem_nil, or_false] at hf'
    exact mem_getBreaks.2 ⟨sj, hj, hf'⟩

theorem cut3_ne (hf : f ≠ []) : cut3 f ≠ [] := by
  cases f with
  | nil => exact absurd rfl hf
  | cons s l =>
    rw [cut3, List.flatMap_cons]
    intro h
    exact splitSeg_ne s (List.append_eq_nil_iff.1 h).1

theorem ProdArgs.fin (h : ProdArgs P f g) : ∃ c : ℝ, Ext.fin c ∈ pBreaks P f g := by
  obtain ⟨p, hp⟩ := exists_fin_break (cut3_ne h.fne)
  obtain ⟨q, hq⟩ := exists_fin_break (cut3_ne h.gne)
  refine ⟨p * q, h.mem hp hq (c := ((p * q : ℝ) : EReal)) ?_⟩
  exact (fmul_fin (p : EReal) q (.inr ⟨p, rfl⟩)).trans (by rw [EReal.coe_mul])

theorem ProdArgs.no_both (h : ProdArgs P f g) (a b : Ext ℝ) (hab : [a, b] <:+: pBreaks P f g) : ¬ (a = .ninf ∧ b = .pinf) := by
  rintro ⟨rfl, rfl⟩
  obtain ⟨c, hc⟩ := h.fin
  rcases infix_between h.breaks.1 hab hc with h1 | h1
  · exact not_le_ninf _ h1
  · exact not_pinf_le _ h1

/-- the pairs do not change between break points -/
theorem ProdArgs.same (h : ProdArgs P f g) {a b : Ext ℝ} (hab : [a, b] <:+: pBreaks P f g) {x z : ℝ} (hx : x ∈ interE a b)
    (hz : z ∈ interE a b) {si sj : Seg ℝ} (hi' : si ∈ cut3 f) (hj : sj ∈ cut3 g) : TestMul z si sj ↔ TestMul x si sj := by
  have key : ∀ c ∈ corners si sj, ((c < (z : EReal)) ↔ c < (x : EReal)) ∧ (((z : EReal) < c) ↔ (x : EReal) < c) := by
    intro c hc
    rcases infix_between h.breaks.1 hab (h.corner hi' hj hc) with h1 | h1
    · exact ⟨iff_of_true (lt_of_le_of_lt h1 hz.1) (lt_of_le_of_lt h1 hx.1),
        iff_of_false (not_lt.2 (h1.trans hz.1.le)) (not_lt.2 (h1.trans hx.1.le))⟩
    · exact ⟨iff_of_false (not_lt.2 (hz.2.le.trans h1)) (not_lt.2 (hx.2.le.trans h1)),
        iff_of_true (lt_of_lt_of_le hz.2 h1) (lt_of_lt_of_le hx.2 h1)⟩
  unfold TestMul
  refine and_congr ?_ ?_
  · exact exists_congr fun c => and_congr_right fun hc => (key c hc).1
  · exact exists_congr fun c => and_congr_right fun hc => (key c hc).2

theorem ProdArgs.out (h : ProdArgs P f g) {x : ℝ} {si sj : Seg ℝ} (hi' : si ∈ cut3 f) (hj : sj ∈ cut3 g) (ht : TestMul x si sj) :
    (∃ a ∈ pBreaks P f g, a < .fin x) ∧ ∃ b ∈ pBreaks P f g, .fin x < b := by
  obtain ⟨⟨c, hc, h1⟩, d, hd, h2⟩ := ht
  exact ⟨⟨c, h.corner hi' hj hc, h1⟩, d, h.corner hi' hj hd, h2⟩

theorem runAt_prod (P : Par) (f g : PF ℝ) : runAt TestMul (pairProd P) f g = prodAt P f g := by
  ext z x
  rw [runAt, prodAt, findSegListMul]
  congr 3
  funext si sj
  exact decide_eq_decide.2 Iff.rfl

/-! ### the atom at 0 -/

/-- an atom at 0 times a continuous piece: the probability -/
noncomputable def zeroW (si sj : Seg ℝ) : ℝ :=
  match si with
  | .dirac a m => if a = 0 ∧ sj.isDirac = false then (sj.law).real univ * m else 0
  | _ => 0

theorem zeroW_nonneg {si sj : Seg ℝ} (hd : si.Dens) : 0 ≤ zeroW si sj := by
  cases si with
  | dirac a m =>
    unfold zeroW
    dsimp only
    split_ifs
    · exact mul_nonneg measureReal_nonneg hd
    · exact le_rfl
  | _ => exact le_rfl

theorem zeroPart_eq {si sj : Seg ℝ} (hd : si.Dens) (hdj : sj.Dens) : zeroPart si sj = ENNReal.ofReal (zeroW si sj) • Measure.dirac 0 := by
  have := Seg.law_finite hdj
  cases si with
  | dirac a m =>
    unfold zeroPart zeroW
    dsimp only
    split_ifs
    · rw [ENNReal.ofReal_mul measureReal_nonneg, ofReal_measureReal, mul_comm]
    · simp
  | _ => simp [zeroPart, zeroW]

theorem sum_ofReal_smul {ι : Type*} (l : List ι) {c : ι → ℝ} (h : ∀ i ∈ l, 0 ≤ c i) (μ : Measure ℝ) :
    0 ≤ (l.map c).sum ∧ (l.map fun i => ENNReal.ofReal (c i) • μ).sum = ENNReal.ofReal (l.map c).sum • μ := by
  induction l with
  | nil => simp
  | cons i l ih =>
    obtain ⟨i1, i2⟩ := ih fun j hj => h j (by simp [hj])
    have hi := h i (by simp)
    simp only [List.map_cons, List.sum_cons]
    exact ⟨add_nonneg hi i1, by rw [i2, ENNReal.ofReal_add hi i1, add_smul]⟩

theorem sum2_ofReal_smul {f g : PF ℝ} {c : Seg ℝ → Seg ℝ → ℝ} (h : ∀ i ∈ f, ∀ j ∈ g, 0 ≤ c i j) (μ : Measure ℝ) :
    0 ≤ sum2 f g c ∧ sum2 f g (fun i j => ENNReal.ofReal (c i j) • μ) = ENNReal.ofReal (sum2 f g c) • μ := by
  obtain ⟨a, b⟩ := sum_ofReal_smul f (c := fun i => (g.map fun j => c i j).sum) (fun i hi => (sum_ofReal_smul g (h i hi) μ).1) μ
  refine ⟨a, ?_⟩
  rw [show sum2 f g c = (f.map fun i => (g.map fun j => c i j).sum).sum from rfl, ← b]
  unfold sum2
  congr 1
  exact List.map_congr_left fun i hi => (sum_ofReal_smul g (h i hi) μ).2

theorem seg_integrate_all (hP : ExactQ P.q P.qp) {s : Seg ℝ} (hd : s.Dens) (hc : ∀ a b c, s ≠ .const a b c) :
    s.integrate P.q P.qp ⊥ ⊤ = (s.law).real univ := by
  have := C58_integrate_partial hP (l := [s]) (a := ⊥) (b := ⊤) (PF.dens_cons.2 ⟨hd, by simp [PF.Dens]⟩) (by trivial) (by simp)
    (fun a b c h => absurd (List.mem_singleton.1 h).symm (hc a b c))
  have e : ivl (⊥ : WithBot ℝ) (⊤ : WithTop ℝ) = univ := by
    ext x; simp [ivl]
  rw [e] at this
  simpa [PF.integrate, PF.law] using this

theorem cut3_noconst {a b c : ℝ} : Seg.const a b c ∉ cut3 f := by
  have h1 : ∀ (pole : Pole) (a₀ b₀ : ℝ) (F : ℝ → ℝ) (ps : List ℝ) (x : ℝ), Seg.const a b c ∉ PF.splitFin pole a₀ b₀ F x ps := by
    intro pole a₀ b₀ F ps
    induction ps with
    | nil => intro x; simp [PF.splitFin]
    | cons p ps ih => intro x; simp [PF.splitFin, ih]
  have h2 : ∀ (F : ℝ → ℝ) (ps : List ℝ) (x : ℝ), Seg.const a b c ∉ PF.splitPInf F x ps := by
    intro F ps
    induction ps with
    | nil => intro x; simp [PF.splitPInf]
    | cons p ps ih => intro x; simp [PF.splitPInf, ih]
  intro h
  obtain ⟨s, -, hs⟩ := List.mem_flatMap.1 h
  cases s with
  | fin => exact h1 _ _ _ _ _ _ hs
  | const => exact h1 _ _ _ _ _ _ hs
  | minf b' F =>
    rw [PF.splitSeg] at hs
    split at hs
    · simp at hs
    · rcases List.mem_cons.1 hs with hs | hs
      · simp at hs
      · exact h1 _ _ _ _ _ _ hs
  | pinf => exact h2 _ _ _ hs
  | dirac => simp [PF.splitSeg] at hs

theorem zeroTimes_eq (hP : ExactQ P.q P.qp) (hg : PF.Dens (cut3 g)) : zeroTimes P (cut3 f) (cut3 g) = sum2 (cut3 f) (cut3 g) zeroW := by
  unfold zeroTimes sum2
  congr 1
  refine List.map_congr_left fun s _ => ?_
  cases s with
  | dirac a m =>
    dsimp only
    by_cases ha : a = 0
    · rw [if_pos ha]
      have key : ∀ l : PF ℝ, (∀ t ∈ l, t.Dens ∧ ∀ a b c, t ≠ .const a b c) →
          ((l.filter fun t => !t.isDirac).map fun t => t.integrate P.q P.qp ⊥ ⊤ * m).sum = (l.map fun t => zeroW (.dirac a m) t).sum := by
        intro l hl
        induction l with
        | nil => rfl
        | cons t l ih =>
          have ih := ih fun u hu => hl u (by simp [hu])
          obtain ⟨h1, h2⟩ := hl t (by simp)
          rw [List.map_cons, List.sum_cons, ← ih, List.filter_cons]
          cases ht : t.isDirac
          · simp only [Bool.not_false, if_true, List.map_cons, List.sum_cons]
            rw [seg_integrate_all hP h1 h2]
            simp [zeroW, ha, ht]
          · simp [zeroW, ht]
      exact key _ fun t ht => ⟨hg t ht, fun a b c e => cut3_noconst (e ▸ ht)⟩
    · rw [if_neg ha]
      simp [zeroW, ha]
  | _ => simp [zeroW]

theorem bisectGo_le {α : Type*} (p : α → Bool) (l : List α) : ∀ fuel lo hi, lo ≤ hi → bisectGo p l fuel lo hi ≤ hi := by
  intro fuel
  induction fuel with
  | zero => intro lo hi h; exact h
  | succ n ih =>
    intro lo hi h
    unfold bisectGo
    split_ifs with h1
    · dsimp only
      split
      · split_ifs
        · exact ih _ _ (by omega)
        · exact (ih _ _ (by omega)).trans (by omega)
      · exact h
    · exact h

theorem findSegment_some {l : PF ℝ} (hl : l ≠ []) (x : ℝ) :
    ∃ r, PF.findSegment l x = some r ∧ ∀ s, r = some s → s ∈ l := by
  unfold PF.findSegment
  dsimp only
  split_ifs with h1 h2
  · obtain ⟨s, hs⟩ : ∃ s, l[bisectLeft Seg.lt l (.dirac x 0)]? = some s := ⟨_, List.getElem?_eq_getElem h1.2⟩
    exact ⟨some s, by rw [hs]; rfl, fun s' h => by cases h; exact List.mem_of_getElem? hs⟩
  · cases l with
    | nil => exact absurd rfl hl
    | cons s l =>
      refine ⟨_, rfl, fun s' h => ?_⟩
      split_ifs at h
      cases h; simp
  · have hlt : bisectLeft Seg.lt l (.dirac x 0) - 1 < l.length := by
      have : bisectLeft Seg.lt l (.dirac x 0) ≤ l.length := bisectGo_le _ _ _ _ _ (Nat.zero_le _)
      omega
    obtain ⟨s, hs⟩ : ∃ s, l[bisectLeft Seg.lt l (.dirac x 0) - 1]? = some s := ⟨_, List.getElem?_eq_getElem hlt⟩
    refine ⟨if s.hi = .fin x then some s else none, by rw [hs], fun s' h => ?_⟩
    split_ifs at h
    cases h
    exact List.mem_of_getElem? hs

theorem addSegment_ne {s : Seg ℝ} {l r : PF ℝ} (h : PF.addSegment eps l s = some r) : r ≠ [] := by
  have hm : ∀ {l r : PF ℝ} {a m : ℝ}, PF.mergeDirac eps a m l = some r → r ≠ [] := by
    intro l r a m h
    cases l with
    | nil => simp [PF.mergeDirac] at h
    | cons t l =>
      unfold PF.mergeDirac at h
      cases t <;> dsimp only at h <;> (try split_ifs at h) <;> simp only [Option.map_eq_some_iff, Option.some.injEq] at h
      all_goals first
        | (obtain ⟨_, _, rfl⟩ := h; simp)
        | (subst h; simp)
  have hi : ∀ {l r : PF ℝ} {s : Seg ℝ}, PF.insertSeg l s = some r → r ≠ [] := by
    intro l r s h
    have hs : ∃ s', r = insort Seg.lt l s' := by
      unfold PF.insertSeg at h
      split at h
      · exact ⟨_, (Option.some.inj h).symm⟩
      · split_ifs at h
        · exact ⟨_, (Option.some.inj h).symm⟩
        · split at h
          all_goals first
            | (split_ifs at h; exact ⟨_, (Option.some.inj h).symm⟩)
            | exact absurd h (by simp)
    obtain ⟨s', rfl⟩ := hs
    simp [insort]
  unfold PF.addSegment at h
  split at h
  · split at h
    · rename_i e
      exact Option.some.inj h ▸ hm e
    · exact hi h
  · exact hi h

/-- the places where the product may have atoms -/
def prodSet (f g : PF ℝ) : Set ℝ := {x | ∃ p ∈ f.marks, ∃ q ∈ g.marks, x = p * q}

theorem ProdArgs.sep (h : ProdArgs P f g) : Sep P.eps (prodSet f g) := by
  rintro x ⟨p, hp, q, hq, rfl⟩ y ⟨p', hp', q', hq', rfl⟩
  by_cases e : p * q = p' * q'
  · exact .inl e
  · refine .inr (lt_of_le_of_lt ?_ (h.apart p hp q hq p' hp' q' hq' e))
    exact le_mul_of_one_le_right h.eps (le_max_left ..)

theorem zero_marks (l : PF ℝ) : (0 : ℝ) ∈ l.marks := .inr (by simp)

theorem dirac_marks (hf : PF.WF eps f) {a m : ℝ} (h : Seg.dirac a m ∈ cut3 f) : a ∈ f.marks :=
  cut3_ends hf ⟨_, h, .inl rfl⟩

theorem dirac_break {l : PF ℝ} {a m : ℝ} (h : Seg.dirac a m ∈ l) : Ext.fin a ∈ PF.getBreaks l :=
  mem_getBreaks.2 ⟨_, h, .inl rfl⟩

theorem ProdArgs.mem_fin (h : ProdArgs P f g) {a b : ℝ} (ha : Ext.fin a ∈ PF.getBreaks (cut3 f))
    (hb : Ext.fin b ∈ PF.getBreaks (cut3 g)) : Ext.fin (a * b) ∈ pBreaks P f g :=
  h.mem ha hb (c := ((a * b : ℝ) : EReal)) ((fmul_fin (a : EReal) b (.inr ⟨a, rfl⟩)).trans (by rw [EReal.coe_mul]))

theorem exists_of_sum2 {f g : PF ℝ} {c : Seg ℝ → Seg ℝ → ℝ} (h : sum2 f g c ≠ 0) : ∃ i ∈ f, ∃ j ∈ g, c i j ≠ 0 := by
  by_contra hc
  push Not at hc
  exact h ((sum2_congr hc).trans (by simp [sum2]))

theorem zeroW_ne {si sj : Seg ℝ} (h : zeroW si sj ≠ 0) : ∃ m, si = .dirac 0 m := by
  cases si with
  | dirac a m =>
    unfold zeroW at h
    dsimp only at h
    split_ifs at h with h1
    · exact ⟨m, by rw [h1.1]⟩
    · exact absurd rfl h
  | _ => exact absurd rfl h

theorem ProdArgs.zero_break (h : ProdArgs P f g)
    (hw : sum2 (cut3 f) (cut3 g) zeroW ≠ 0 ∨ sum2 (cut3 g) (cut3 f) zeroW ≠ 0) : Ext.fin 0 ∈ pBreaks P f g := by
  rcases hw with hw | hw
  · obtain ⟨i, hi', j, hj, e⟩ := exists_of_sum2 hw
    obtain ⟨m, rfl⟩ := zeroW_ne e
    obtain ⟨q, hq⟩ := exists_fin_break (cut3_ne h.gne)
    simpa using h.mem_fin (dirac_break hi') hq
  · obtain ⟨i, hi', j, hj, e⟩ := exists_of_sum2 hw
    obtain ⟨m, rfl⟩ := zeroW_ne e
    obtain ⟨q, hq⟩ := exists_fin_break (cut3_ne h.fne)
    simpa using h.mem_fin hq (dirac_break hi')

theorem le_sum_measure {ι : Type*} {l : List ι} {F : ι → Measure ℝ} {i : ι} (h : i ∈ l) : F i ≤ (l.map F).sum := by
  induction l with
  | nil => simp at h
  | cons j l ih =>
    rw [List.map_cons, List.sum_cons]
    rcases List.mem_cons.1 h with rfl | h
    · exact Measure.le_add_right le_rfl
    · exact Measure.le_add_left (ih h)

theorem addAll_ne (he : 0 ≤ eps) {ss l r : PF ℝ} (h : PF.addAll eps l ss = some r) (hne : l ≠ [] ∨ ss ≠ []) : r ≠ [] := by
  induction ss generalizing l with
  | nil =>
    simp only [PF.addAll, Option.some.injEq] at h
    simpa [← h] using hne
  | cons s ss ih =>
    rw [PF.addAll] at h
    obtain ⟨l', h1, h2⟩ := Option.bind_eq_some_iff.1 h
    exact ih h2 (.inl (addSegment_ne h1))

/-- the atom at 0, if it is added -/
noncomputable def zeroList (P : Par) (f g : PF ℝ) : PF ℝ :=
  match zeroAtom P f g with
  | none => []
  | some w => [.dirac 0 w]

/-- the law and the density of the product -/
theorem prod_spec (h : ProdArgs P f g) (hP : ExactQ P.q P.qp) (hf : PF.Dens f) (hg : PF.Dens g) (pole : ℝ → ℝ → Pole) :
    ∃ r, convprod P pole f g = some r ∧ PF.WF P.eps r ∧ PF.Dens r ∧ PF.law r = opLaw (· * ·) (PF.law f) (PF.law g) ∧
      (∀ᵐ x, r.val x = sum2 (cut3 f) (cut3 g) fun i j => prodK i j x) := by
  obtain ⟨f3, f4, -⟩ := cut3_law h.eps h.fwf hf
  obtain ⟨g3, g4, -⟩ := cut3_law h.eps h.gwf hg
  have f2 := cut3_wf h.fwf
  have g2 := cut3_wf h.gwf
  obtain ⟨d, d1, d2, d3, d4⟩ := convdiracs_law h.eps (· * ·) f3 g3 (by
    intro a m b n a' m' b' n' h1 h2 h3 h4 hne
    rcases h.sep _ ⟨a, dirac_marks h.fwf h1, b, dirac_marks h.gwf h2, rfl⟩ _ ⟨a', dirac_marks h.fwf h3, b', dirac_marks h.gwf h4, rfl⟩
      with e | e
    · exact absurd e hne
    · exact e)
  have hdd : PF.diracs d = d := diracs_self fun s hs => by obtain ⟨x, m, rfl, -⟩ := d3 s hs; rfl
  obtain ⟨a1, a2⟩ := sum2_ofReal_smul (f := cut3 f) (g := cut3 g) (c := zeroW) (fun i hi' j _ => zeroW_nonneg (f3 i hi')) (Measure.dirac 0)
  obtain ⟨b1, b2⟩ := sum2_ofReal_smul (f := cut3 g) (g := cut3 f) (c := zeroW) (fun i hi' j _ => zeroW_nonneg (g3 i hi')) (Measure.dirac 0)
  have e1 : zeroTimes P (cut3 f) (cut3 g) = _ := zeroTimes_eq hP g3
  have e2 : zeroTimes P (cut3 g) (cut3 f) = _ := zeroTimes_eq hP f3
  have hz : AtomList {x | x = 0 ∧ Ext.fin x ∈ pBreaks P f g} (zeroList P (cut3 f) (cut3 g)) ∧ PF.law (zeroList P (cut3 f) (cut3 g)) =
      sum2 (cut3 f) (cut3 g) (fun i j => zeroPart i j + zeroPart j i) := by
    have el : sum2 (cut3 f) (cut3 g) (fun i j => zeroPart i j + zeroPart j i) =
        ENNReal.ofReal (sum2 (cut3 f) (cut3 g) zeroW + sum2 (cut3 g) (cut3 f) zeroW) • Measure.dirac 0 := by
      rw [sum2_add, ENNReal.ofReal_add a1 b1, add_smul, ← a2, ← b2]
      congr 1
      · exact sum2_congr fun i hi' j hj => zeroPart_eq (f3 i hi') (g3 j hj)
      · rw [sum2_swap]
        exact sum2_congr fun i hi' j hj => zeroPart_eq (g3 i hi') (f3 j hj)
    rw [el]
    unfold zeroList zeroAtom
    rw [e1, e2]
    split_ifs with hw
    · constructor
      · intro s hs
        obtain rfl := List.mem_singleton.1 hs
        refine ⟨0, _, rfl, hw.le, rfl, h.zero_break ?_⟩
        by_contra hc
        push Not at hc
        rw [hc.1, hc.2] at hw
        simp at hw
      · simp [PF.law, Seg.law]
    · refine ⟨by intro s hs; simp at hs, ?_⟩
      rw [ENNReal.ofReal_of_nonpos (not_lt.1 hw)]
      simp [PF.law]
  obtain ⟨z1, z2⟩ := hz
  have dz : AtomList (prodSet f g) (d ++ zeroList P (cut3 f) (cut3 g)) := by
    refine AtomList.append ?_ ?_
    · intro s hs
      obtain ⟨x, m, rfl, hm, a, p, b, q, ha, hb, rfl⟩ := d3 s hs
      exact ⟨_, m, rfl, hm, a, dirac_marks h.fwf ha, b, dirac_marks h.gwf hb, rfl⟩
    · intro s hs
      obtain ⟨x, m, e, hm, rfl, -⟩ := z1 s hs
      exact ⟨0, m, e, hm, 0, zero_marks f, 0, zero_marks g, by simp⟩
  obtain ⟨r, r1, r2, r3, r4, -, r6, r7, r8⟩ := run_law measurable_prod h.eps f3 g3
    (fun si hsi sj hsj => pairProd_spec hP (f2.seg si hsi) (g2.seg sj hsj) (f3 si hsi) (g3 sj hsj) (cut3_cut h.fwf hsi) (cut3_cut h.gwf hsj))
    h.breaks.1 h.no_both
    (fun a b hab x hx si hsi sj hsj => h.same hab hx (mid_mem (infix_lt h.breaks.1 hab) (h.no_both a b hab)) hsi hsj)
    (fun x si hsi sj hsj ht => h.out hsi hsj ht)
    (D := d ++ zeroList P (cut3 f) (cut3 g)) (by
      intro s hs
      rcases List.mem_append.1 hs with hs | hs
      · obtain ⟨x, m, rfl, hm, a, p, b, q, ha, hb, rfl⟩ := d3 s hs
        exact ⟨_, m, rfl, hm, not_inside h.breaks.1 (h.mem_fin (dirac_break ha) (dirac_break hb))⟩
      · obtain ⟨x, m, rfl, hm, rfl, hx⟩ := z1 s hs
        exact ⟨_, m, rfl, hm, not_inside h.breaks.1 hx⟩)
    (dz.pairwise h.sep) (by
      rw [PF.law_append, d4, z2, ← sum2_add]
      rfl) pole
  refine ⟨r, ?_, r2, r3, by rw [r4, f4, g4], r6⟩
  rw [runAt_prod] at r1 r7 r8
  rw [← List.append_assoc, addAll_append] at r1
  rw [← List.append_assoc] at r7 r8
  obtain ⟨F, hF, r1⟩ := Option.bind_eq_some_iff.1 r1
  rw [List.pairwise_append] at r7
  obtain ⟨F', hF', w1, -, -, w5⟩ := addAll_compat h.eps _ [] ⟨by simp, List.Pairwise.nil⟩
    (fun s hs => r8 s (List.mem_append_left _ hs)) r7.1 (by simp)
  obtain rfl : F' = F := Option.some.inj (hF'.symm.trans hF)
  have hc : ∀ s ∈ zeroList P (cut3 f) (cut3 g), ∀ t ∈ F', Seg.Compat P.eps s t := by
    intro s hsd t ht
    rcases w5 t ht with h1 | h1 | ⟨a, m, m', rfl, h1 | h1⟩
    · simp at h1
    · exact (r7.2.2 t h1 s hsd).symm
    · simp at h1
    · exact compat_dirac (r7.2.2 _ h1 s hsd).symm
  have hne : F' ≠ [] := by
    rcases h.alive with ⟨n1, n2⟩ | ⟨⟨a, m, hm, ha⟩, b, n, hn, hb⟩
    · rintro rfl
      have e3 : PF.law r {0}ᶜ = 0 := by
        unfold zeroList at r1
        split at r1
        · simp only [PF.addAll, Option.some.injEq] at r1
          subst r1
          simp [PF.law]
        · rw [addAll_self h.eps ⟨by intro s hs; rw [List.mem_singleton.1 hs]; trivial, List.pairwise_singleton ..⟩] at r1
          cases r1
          simp [PF.law, Seg.law]
      rw [r4, f4, g4, opLaw, Measure.map_apply measurable_prod (measurableSet_singleton 0).compl] at e3
      have := PF.law_finite hf
      have := PF.law_finite hg
      have e4 : (PF.law f).prod (PF.law g) ({0}ᶜ ×ˢ {0}ᶜ) = 0 := measure_mono_null (by
        rintro ⟨x, y⟩ ⟨hx, hy⟩
        exact mul_ne_zero hx hy) e3
      rw [Measure.prod_prod] at e4
      exact (mul_ne_zero n1 n2) e4
    · refine addAll_ne h.eps hF (.inr fun e => ?_)
      have e := (List.append_eq_nil_iff.1 e).2
      rw [e] at d4
      have i1 : atomLaw (· * ·) (.dirac a m) (.dirac b n) ≤ sum2 (cut3 f) (cut3 g) (atomLaw (· * ·)) :=
        (le_sum_measure (F := fun j => atomLaw (· * ·) (.dirac a m) j) ((cut3_dirac h.gwf).2 hb)).trans
          (le_sum_measure (F := fun i => ((cut3 g).map fun j => atomLaw (· * ·) i j).sum) ((cut3_dirac h.fwf).2 ha))
      rw [← d4] at i1
      have := i1 univ
      simp [PF.law, atomLaw, atomPair] at this
      nlinarith
  rw [addAll_append] at hF
  obtain ⟨F1, hF1, hF⟩ := Option.bind_eq_some_iff.1 hF
  obtain ⟨s0, hs0, hs0m⟩ := findSegment_some hne 0
  obtain ⟨c, hcm⟩ := h.fin
  have hbne : prodBreaks P (cut3 f) (cut3 g) ≠ [] := List.ne_nil_of_mem hcm
  rw [convprod, cut3_eq h.eps h.fwf, Option.bind_some, cut3_eq h.eps h.gwf, Option.bind_some, if_neg hbne]
  rw [show pieces pole (prodAt P (cut3 f) (cut3 g)) (prodBreaks P (cut3 f) (cut3 g)) = pieces pole (prodAt P (cut3 f) (cut3 g)) (pBreaks P f g) from rfl,
    hF1, Option.bind_some, d1, Option.bind_some, hdd, hF, Option.bind_some, hs0, Option.bind_some]
  unfold zeroList at r1 hc
  unfold addZero
  split at r1
  · rename_i hn
    rw [hn]
    simpa [PF.addAll] using r1
  · rename_i w hn
    rw [hn] at hc ⊢
    have r1' : PF.addSegment P.eps F' (.dirac 0 w) = some r := by simpa [PF.addAll] using r1
    dsimp only
    split
    · rename_i a m
      split_ifs with ha
      · subst ha
        have hg0 : (PF.getDirac 0 F').isNone = false := by
          obtain ⟨m', e⟩ := getDirac_isSome (hs0m _ rfl)
          simp [e]
        have := merge_bump h.eps (fun t ht => hc (.dirac 0 w) (List.mem_singleton.2 rfl) t ht) hg0
        rw [PF.addSegment, this] at r1'
        exact r1'
      · exact r1'
    · exact r1'

end Conv
end Pacal
