import Verif.Push.BuiltinLemmas
import Verif.Push.PropsShift
import Mathlib.Analysis.SpecialFunctions.Trigonometric.Deriv

/-! Assembling the built-in functions. -/

namespace Pacal
open MeasureTheory Set Real

/-- a set missed by all pieces and atoms has measure 0 -/
theorem law_null {l : PF ℝ} {A : Set ℝ} (hA : MeasurableSet A) (h1 : ∀ s ∈ l, s.isDirac = false → ∀ x ∈ s.inner, x ∉ A)
    (h2 : ∀ a m, Seg.dirac a m ∈ l → a ∉ A) : PF.law l A = 0 := by
  induction l with
  | nil => simp
  | cons s l ih =>
    rw [PF.law_cons, Measure.add_apply, ih (fun t ht => h1 t (by simp [ht])) (fun a m h => h2 a m (by simp [h])), add_zero]
    cases hs : s.isDirac
    · rw [Seg.law_inner hs]
      refine withDensity_absolutelyContinuous _ _ ?_
      rw [Measure.restrict_apply hA, show A ∩ s.inner = ∅ from ?_, measure_empty]
      ext x
      simp only [mem_inter_iff, mem_empty_iff_false, iff_false]
      rintro ⟨h3, h4⟩
      exact h1 s (by simp) hs x h4 h3
    · cases s <;> simp [Seg.isDirac] at hs
      rename_i a m
      simp [Seg.law, Measure.dirac_apply' a hA, h2 a m (by simp)]

theorem cutEnds_lt {s : Seg ℝ} (hw : s.WF) (hs : s.isDirac = false) {p q : Ext ℝ} (h : (p, q) ∈ s.cutEnds) :
    p < q ∧ (p = .ninf → q ≠ .pinf) := by
  have hlt := (Seg.wf_iff hs).1 hw
  unfold Seg.cutEnds at h
  split_ifs at h with hc
  · simp only [List.mem_cons, Prod.mk.injEq, List.not_mem_nil, or_false] at h
    rcases h with ⟨rfl, rfl⟩ | ⟨rfl, rfl⟩
    · exact ⟨hc.1, fun _ => by intro h; cases h⟩
    · exact ⟨hc.2, fun h => (by cases h)⟩
  · simp only [List.mem_cons, Prod.mk.injEq, List.not_mem_nil, or_false] at h
    obtain ⟨rfl, rfl⟩ := h
    refine ⟨hlt, ?_⟩
    cases s <;> simp [Seg.lo, Seg.hi, Seg.isDirac, Ext.fin, Ext.pinf, Ext.ninf] at hs ⊢

theorem sign_exp {p q : Ext ℝ} (h : p < q ∧ (p = .ninf → q ≠ .pinf)) : SignOK expExt p q := by
  obtain ⟨h1, h2⟩ := h
  rcases ext_trich p with rfl | ⟨a, rfl⟩ | rfl
  · rcases ext_trich q with rfl | ⟨b, rfl⟩ | rfl
    · exact absurd h1 (lt_irrefl _)
    · exact ⟨fun h => (by cases h), fun h => (by cases h), fun h => (by cases h), fun h => (by cases h)⟩
    · exact absurd rfl (h2 rfl)
  · refine ⟨fun h => (by cases h), fun h => (by cases h), fun _ => extFin_lt.2 (exp_pos a), fun h => ?_⟩
    rcases ext_trich q with rfl | ⟨b, rfl⟩ | rfl
    · exact absurd h1 (not_lt_ninf _)
    · cases h
    · cases h
  · exact absurd h1 (not_pinf_lt _)

theorem sign_bounded {g : ℝ → ℝ} {u v : ℝ} (p q : Ext ℝ) : SignOK (extMap g (.fin u) (.fin v)) p q := by
  have key : ∀ e, ∃ y, extMap g (.fin u) (.fin v) e = .fin y := by
    intro e
    rcases ext_trich e with rfl | ⟨a, rfl⟩ | rfl
    · exact ⟨u, rfl⟩
    · exact ⟨g a, rfl⟩
    · exact ⟨v, rfl⟩
  obtain ⟨y, hy⟩ := key p
  obtain ⟨z, hz⟩ := key q
  unfold SignOK
  rw [hy, hz]
  exact ⟨fun h => (by cases h), fun h => (by cases h), fun h => (by cases h), fun h => (by cases h)⟩

theorem sign_log {p q : Ext ℝ} (h1 : p < q) (h0 : .fin 0 ≤ p) (hc : ∀ x ∈ [(0.5 : ℝ), 1, 2], ¬ (p < .fin x ∧ .fin x < q)) :
    SignOK logExt p q := by
  rcases ext_trich p with rfl | ⟨a, rfl⟩ | rfl
  · exact absurd h0 (not_le_ninf _)
  · have h0 := extFin_le.1 h0
    rcases ext_trich q with rfl | ⟨b, rfl⟩ | rfl
    · exact absurd h1 (not_lt_ninf _)
    · have h1 := extFin_lt.1 h1
      have hb : 0 < b := h0.trans_lt h1
      rcases h0.eq_or_lt with rfl | h0
      · unfold SignOK
        rw [logExt_zero, logExt_pos hb]
        refine ⟨fun _ => extFin_lt.2 (Real.log_neg hb ?_), fun h => (by cases h), fun h => (by cases h), fun h => (by cases h)⟩
        have := hc 0.5 (by simp)
        rw [extFin_lt, extFin_lt] at this
        have h5 : ¬ (0.5 : ℝ) < b := fun h => this ⟨by norm_num, h⟩
        norm_num at h5 ⊢
        linarith
      · unfold SignOK
        rw [logExt_pos h0, logExt_pos hb]
        exact ⟨fun h => (by cases h), fun h => (by cases h), fun h => (by cases h), fun h => (by cases h)⟩
    · have h2 : (2 : ℝ) ≤ a := by
        by_contra h
        exact hc 2 (by simp) ⟨extFin_lt.2 (not_le.1 h), extFin_lt_pinf _⟩
      unfold SignOK
      rw [logExt_pos (by linarith), logExt_pinf]
      exact ⟨fun h => (by cases h), fun h => (by cases h), fun _ => extFin_lt.2 (Real.log_pos (by linarith)), fun h => (by cases h)⟩
  · exact absurd h1 (not_pinf_lt _)

variable {eps : ℝ} {mass : Seg ℝ → ℝ} {l : PF ℝ}

theorem all_line (s : Seg ℝ) : Ext.ninf ≤ s.lo ∧ s.hi ≤ .pinf := ⟨ninf_le_ext _, ext_le_pinf _⟩

theorem exp_all (he : 0 ≤ eps) (hl : PF.WF eps l) (hd : PF.Dens l) (ha : PF.ImagesApart eps Real.exp l) :
    ∃ r, expDistr eps mass l = some r ∧ PF.WF eps r ∧ PF.Dens r ∧ PF.law r = (PF.law l).map Real.exp ∧
      (∀ b n, Seg.dirac b n ∈ r → ∃ a m, Seg.dirac a m ∈ l ∧ b = Real.exp a) := by
  obtain ⟨r, h1, h2, h3, h4, -, h5⟩ := comp_all (pole := true) (mass := mass) he mono_exp hl hd (fun s _ => all_line s)
    (fun s hs hsd p q h => sign_exp (cutEnds_lt (hl.seg s hs) hsd h)) (fun a m _ => ⟨_, rfl⟩) ha
  exact ⟨r, h1, h2, h3, h4, h5⟩

theorem bounded_all (he : 0 ≤ eps) {g h h' : ℝ → ℝ} {u v : ℝ}
    (H : MonoPair .ninf .pinf (extMap g (.fin u) (.fin v)) g h h') (hl : PF.WF eps l) (hd : PF.Dens l)
    (ha : PF.ImagesApart eps g l) :
    ∃ r, PF.copyComposition eps l (extMap g (.fin u) (.fin v)) h h' false mass = some r ∧ PF.WF eps r ∧ PF.Dens r ∧
      PF.law r = (PF.law l).map g := by
  obtain ⟨r, h1, h2, h3, h4, -⟩ := comp_all (pole := false) (mass := mass) he H hl hd (fun s _ => all_line s)
    (fun s hs hsd p q h => sign_bounded p q) (fun a m _ => ⟨_, rfl⟩) ha
  exact ⟨r, h1, h2, h3, h4⟩

theorem log_all (he : 0 ≤ eps) (hl : PF.WF eps l) (hd : PF.Dens l) (h0 : ∀ s ∈ l, .fin 0 ≤ s.lo)
    (hp : ∀ a m, Seg.dirac a m ∈ l → 0 < a) (ha : PF.ImagesApart eps Real.log l) :
    ∃ r, logDistr eps mass true l = some r ∧ PF.WF eps r ∧ PF.Dens r ∧ PF.law r = (PF.law l).map Real.log ∧
      (∀ b n, Seg.dirac b n ∈ r → ∃ a m, Seg.dirac a m ∈ l ∧ b = Real.log a) := by
  have hps : [(0.5 : ℝ), 1, 2].Pairwise (· < ·) := by norm_num
  obtain ⟨l₁, e1, hw1, hd1, hlaw1⟩ := C04_law he _ hps l hl hd
  obtain ⟨l₂, e2, -, -, hdir, -, hcut⟩ := C04_split he _ hps l hl
  obtain rfl : l₁ = l₂ := by rw [e1] at e2; exact Option.some.inj e2
  have hin := C04_pieces he _ hps l hl l₁ e1
  have hlo : ∀ t ∈ l₁, .fin 0 ≤ t.lo := by
    intro t ht
    obtain ⟨s, hs, -, h1, -⟩ := hin t ht
    exact (h0 s hs).trans h1
  have hdir' : ∀ a m, Seg.dirac a m ∈ l₁ → Seg.dirac a m ∈ l := by
    intro a m h
    rw [← mem_diracs, hdir, mem_diracs] at h
    exact h
  obtain ⟨r, h1, h2, h3, h4, -, h5⟩ := comp_all (pole := false) (mass := mass) he mono_log hw1 hd1
    (fun s hs => ⟨hlo s hs, ext_le_pinf _⟩) (by
      intro s hs hsd p q h
      unfold Seg.cutEnds at h
      rw [if_neg (fun hc => absurd hc.1 (not_lt.2 (hlo s hs)))] at h
      simp only [List.mem_cons, Prod.mk.injEq, List.not_mem_nil, or_false] at h
      obtain ⟨rfl, rfl⟩ := h
      exact sign_log ((Seg.wf_iff hsd).1 (hw1.seg s hs)) (hlo s hs) (fun x hx => hcut x hx s hs))
    (fun a m h => ⟨_, logExt_pos (hp a m (hdir' a m h))⟩)
    (fun a m a' m' h1 h2 => ha a m a' m' (hdir' _ _ h1) (hdir' _ _ h2))
  refine ⟨r, ?_, h2, h3, by rw [h4, hlaw1], ?_⟩
  · rw [logDistr, if_pos rfl, PF.copyLogComposition, e1, Option.bind_some, h1]
  · intro b n hb
    obtain ⟨a, m, h6, h7⟩ := h5 b n hb
    exact ⟨a, m, hdir' a m h6, h7⟩

/-- a larger separation of atoms -/
theorem wf_raise {eps' : ℝ} (he : 0 ≤ eps) (hl : PF.WF eps l)
    (h : ∀ a m a' m', Seg.dirac a m ∈ l → Seg.dirac a' m' ∈ l → a = a' ∨ eps' < |a - a'|) : PF.WF eps' l := by
  refine ⟨hl.seg, hl.sorted.imp_of_mem fun {s t} h1 h2 H => ⟨H.1, ?_⟩⟩
  rintro a m a' m' rfl rfl
  rcases h a m a' m' h1 h2 with e | e
  · have := H.2 a m a' m' rfl rfl
    rw [e] at this; simp at this; exact absurd he (not_le.2 this)
  · exact e

/-- atoms of a shifted and scaled function -/
theorem shift_atoms {r : PF ℝ} {shift scale : ℝ} (he : 0 ≤ eps) (hs : scale ≠ 0) (hl : PF.WF (eps / |scale|) l)
    (hd : PF.Dens l) (h : shiftedScaled eps l shift scale = some r) :
    ∀ b n, Seg.dirac b n ∈ r → ∃ a m, Seg.dirac a m ∈ l ∧ b = a * scale + shift := by
  rw [shiftedScaled, if_pos hs] at h
  obtain ⟨r', h1, -, -, -, -, -, h5⟩ := addAll_law he (ss := l.map (Seg.shiftAndScale shift scale))
    (by simpa using fun s h => (shift_piece hs shift (hl.seg s h) (hd s h)).1) (shift_compat hs shift hl) (by
      intro t ht
      obtain ⟨s, hs', rfl⟩ := List.mem_map.1 ht
      exact (shift_piece hs shift (hl.seg s hs') (hd s hs')).2.1)
  obtain rfl : r = r' := by
    rw [PF.copyShiftedAndScaled] at h
    rw [h] at h1; exact Option.some.inj h1
  have key : ∀ b n, Seg.dirac b n ∈ l.map (Seg.shiftAndScale shift scale) → ∃ a m, Seg.dirac a m ∈ l ∧ b = a * scale + shift := by
    intro b n hb
    obtain ⟨s, hs', e⟩ := List.mem_map.1 hb
    have := shift_isDirac shift scale s
    rw [e] at this
    cases s <;> simp [Seg.isDirac] at this
    rename_i a m
    simp only [Seg.shiftAndScale, Seg.dirac.injEq] at e
    exact ⟨a, m, hs', e.1.symm⟩
  intro b n hb
  rcases h5 _ hb with h | ⟨a, m, m', e, h⟩
  · exact key b n h
  · cases e; exact key _ _ h

/-- `X ** d` for a positive variable -/
theorem pow_all (he : 0 ≤ eps) (hl : PF.WF eps l) (hd : PF.Dens l) (h0 : ∀ s ∈ l, .fin 0 ≤ s.lo)
    (hp : ∀ a m, Seg.dirac a m ∈ l → 0 < a) {d : ℝ} (hd0 : d ≠ 0)
    (ha1 : PF.ImagesApart eps Real.log l) (ha2 : PF.ImagesApart (eps / |d|) Real.log l)
    (ha3 : PF.ImagesApart eps (fun x => x ^ d) l) :
    ∃ a b r, logDistr eps mass true l = some a ∧ shiftedScaled eps a 0 d = some b ∧ expDistr eps mass b = some r ∧
      PF.WF eps r ∧ PF.Dens r ∧ PF.law r = (PF.law l).map fun x => x ^ d := by
  obtain ⟨a, e1, w1, d1, l1, at1⟩ := log_all (mass := mass) he hl hd h0 hp ha1
  have w1' : PF.WF (eps / |d|) a := by
    refine wf_raise he w1 ?_
    intro b n b' n' hb hb'
    obtain ⟨x, m, hx, rfl⟩ := at1 b n hb
    obtain ⟨x', m', hx', rfl⟩ := at1 b' n' hb'
    exact ha2 x m x' m' hx hx'
  obtain ⟨b, e2, w2, d2, l2⟩ := C18_law_partial he hd0 0 w1' d1
  have at2 := shift_atoms he hd0 w1' d1 e2
  have hpow : ∀ x : ℝ, 0 < x → Real.exp (Real.log x * d + 0) = x ^ d := by
    intro x hx; rw [add_zero, Real.rpow_def_of_pos hx]
  obtain ⟨r, e3, w3, d3, l3, -⟩ := exp_all (mass := mass) he w2 d2 (by
    intro u n u' n' hu hu'
    obtain ⟨v, m, hv, rfl⟩ := at2 u n hu
    obtain ⟨v', m', hv', rfl⟩ := at2 u' n' hu'
    obtain ⟨x, k, hx, rfl⟩ := at1 v m hv
    obtain ⟨x', k', hx', rfl⟩ := at1 v' m' hv'
    rw [hpow x (hp x k hx), hpow x' (hp x' k' hx')]
    exact ha3 x k x' k' hx hx')
  refine ⟨a, b, r, e1, e2, e3, w3, d3, ?_⟩
  rw [l3, l2, l1, Measure.map_map (by fun_prop) (by fun_prop), Measure.map_map (by fun_prop) (by fun_prop)]
  refine Measure.map_congr ?_
  have hnull : PF.law l (Iic 0) = 0 := by
    refine law_null measurableSet_Iic (fun s hs _ x hx => ?_) (fun a m h => not_le.2 (hp a m h))
    exact not_le.2 (extFin_lt.1 (lt_of_le_of_lt (h0 s hs) hx.1))
  have : ∀ᵐ x ∂(PF.law l), 0 < x := by
    rw [ae_iff]
    convert hnull using 2
    ext x; simp
  filter_upwards [this] with x hx
  exact hpow x hx

theorem tan_segment {c d : ℝ} (hc : -(π / 2) < c) (hd : d < π / 2) (_ : c ≤ d) :
    MonoPair (.fin c) (.fin d) tanExt tan tanInv tanInvDeriv := by
  have hsub : Icc c d ⊆ Ioo (-(π / 2)) (π / 2) := fun x hx => ⟨hc.trans_le hx.1, hx.2.trans_lt hd⟩
  have hm : StrictMonoOn tan (Icc c d) := strictMonoOn_tan.mono hsub
  refine MonoPair.segment (R := Ioo (tan c) (tan d)) (.inl hm) ?_ ?_ ?_ ⟨?_, ?_⟩
  · have : tan = fun x => sin x / cos x := funext tan_eq_sin_div_cos
    rw [this]
    exact (measurable_sin).div measurable_cos
  · intro x hx
    exact (hasDerivAt_tan (cos_pos_of_mem_Ioo (hsub ⟨hx.1.le, hx.2.le⟩)).ne').differentiableAt
  · rintro y (hy | hy)
    · exact hy
    · have := hm.monotoneOn (show c ∈ Icc c d from ⟨le_rfl, by assumption⟩) (show d ∈ Icc c d from ⟨by assumption, le_rfl⟩) (by assumption)
      linarith [hy.1, hy.2]
  · intro x hx
    have hx' : x ∈ Icc c d := ⟨hx.1.le, hx.2.le⟩
    refine ⟨⟨hm ⟨le_rfl, hx'.1.trans hx'.2⟩ hx' hx.1, hm hx' ⟨hx'.1.trans hx'.2, le_rfl⟩ hx.2⟩, arctan_tan (hsub hx').1 (hsub hx').2⟩
  · intro y hy
    have h1 := (inv_tan.2 y trivial)
    refine ⟨⟨?_, ?_⟩, h1.2⟩
    · rw [tanInv, ← arctan_tan hc (by linarith : c < π / 2)]; exact arctan_strictMono hy.1
    · rw [tanInv, ← arctan_tan (by linarith : -(π / 2) < d) hd]; exact arctan_strictMono hy.2

/-! ### functions that are not injective -/

theorem restrict_atoms (he : 0 ≤ eps) (hl : PF.WF eps l) {a b : Ext ℝ} (hab : a < b) {r : PF ℝ}
    (h : PF.restrictToInterval eps l a b = some r) {x m : ℝ} (hx : Seg.dirac x m ∈ r) : Seg.dirac x m ∈ l := by
  have hs : (PF.finites [a, b]).Pairwise (· < ·) := finites_sorted (by simp [hab])
  have hw := split_wf hs hl
  unfold PF.restrictToInterval at h
  rw [splitByPoints_eq he hs hl, Option.bind_some, addAll_self he (wf_filter hw _)] at h
  obtain rfl := Option.some.inj h
  have := (List.mem_filter.1 hx).1
  rw [← mem_diracs, split_diracs hs hl, mem_diracs] at this
  exact this

/-- what a branch must satisfy -/
structure BranchOK (g : ℝ → ℝ) (B : Branch) : Prop where
  lt : B.lo < B.hi
  mono : MonoPair B.lo B.hi B.f g B.finv B.dfinv
  sign : ∀ p q, B.lo ≤ p → p < q → q ≤ B.hi → SignOK B.f p q
  fin : ∀ x, ∃ y, B.f (.fin x) = .fin y

theorem noninj_all (he : 0 ≤ eps) {pole : Bool} {g : ℝ → ℝ} (hl : PF.WF eps l) (hd : PF.Dens l) (ha : PF.ImagesApart eps g l) :
    ∀ (Bs : List Branch), (∀ B ∈ Bs, BranchOK g B) → ∀ F : PF ℝ, PF.WF eps F → PF.Dens F →
      (∀ b n, Seg.dirac b n ∈ F → ∃ a m, Seg.dirac a m ∈ l ∧ b = g a) →
      ∃ r, PF.copyCompositionNoninjective eps l pole mass Bs F = some r ∧ PF.WF eps r ∧ PF.Dens r ∧
        PF.law r = PF.law F + (Bs.map fun B => ((PF.law l).restrict {x | B.lo ≤ .fin x ∧ .fin x < B.hi}).map g).sum
  | [], _, F, hF, dF, _ => ⟨F, rfl, hF, dF, by simp⟩
  | B :: Bs, hB, F, hF, dF, aF => by
    have OK := hB B (by simp)
    obtain ⟨s, e1, w1, d1, l1⟩ := C05_law he l hl hd B.lo B.hi OK.lt
    obtain ⟨s', e1', -, -, -, hin⟩ := C05_restrict he l hl B.lo B.hi OK.lt
    obtain rfl : s = s' := by rw [e1] at e1'; exact Option.some.inj e1'
    have at1 : ∀ x m, Seg.dirac x m ∈ s → Seg.dirac x m ∈ l := fun x m h => restrict_atoms he hl OK.lt e1 h
    obtain ⟨c, e2, w2, d2, l2, -, at2⟩ := comp_all (pole := pole) (mass := mass) he OK.mono w1 d1 hin (by
      intro t ht htd p q h
      have h1 := cutEnds_within h
      exact OK.sign p q ((hin t ht).1.trans h1.1) (cutEnds_lt (w1.seg t ht) htd h).1 (h1.2.trans (hin t ht).2))
      (fun a m _ => OK.fin a) (fun a m a' m' h h' => ha a m a' m' (at1 _ _ h) (at1 _ _ h'))
    have apart : PF.AtomsApart eps F c := by
      intro b n b' n' h h'
      obtain ⟨a, m, h1, rfl⟩ := aF b n h
      obtain ⟨a', m', h1', rfl⟩ := at2 b' n' h'
      exact ha a m a' m' h1 (at1 _ _ h1')
    obtain ⟨F', e3, w3, d3, l3⟩ := C06_law_add he F c hF w2 apart dF d2
    obtain ⟨F'', e3', w3', -, dir⟩ := operation_ok he (op := fun x y => x + y) (by norm_num) hF w2 apart
    obtain rfl : F' = F'' := by rw [e3] at e3'; exact Option.some.inj e3'
    obtain ⟨r, e4, w4, d4, l4⟩ := noninj_all he hl hd ha Bs (fun B h => hB B (by simp [h])) F' w3 d3 (by
      intro b n h
      have h1 := (getDirac_iff he w3).2 h
      rw [dir] at h1
      cases h2 : PF.getDirac b F with
      | some k => exact aF b k (getDirac_mem h2)
      | none =>
        cases h3 : PF.getDirac b c with
        | some k =>
          obtain ⟨a, m, h4, h5⟩ := at2 b k (getDirac_mem h3)
          exact ⟨a, m, at1 _ _ h4, h5⟩
        | none => rw [h2, h3] at h1; simp [combMass] at h1)
    refine ⟨r, ?_, w4, d4, ?_⟩
    · rw [PF.copyCompositionNoninjective, e1, Option.bind_some, e2, Option.bind_some, e3, Option.bind_some, e4]
    · rw [l4, l3, l2, l1, List.map_cons, List.sum_cons, add_assoc]

theorem sign_finite {g : ℝ → ℝ} {vlo vhi : Ext ℝ} {a b : ℝ} (p q : Ext ℝ) (h1 : .fin a ≤ p) (h2 : p < q) (h3 : q ≤ .fin b) :
    SignOK (extMap g vlo vhi) p q := by
  obtain ⟨x, rfl⟩ : ∃ x, p = .fin x := by
    rcases ext_trich p with rfl | h | rfl
    · exact absurd h1 (not_le_ninf _)
    · exact h
    · exact absurd h2 (not_pinf_lt _)
  obtain ⟨y, rfl⟩ : ∃ y, q = .fin y := by
    rcases ext_trich q with rfl | h | rfl
    · exact absurd h2 (not_lt_ninf _)
    · exact h
    · exact absurd h3 (not_pinf_le _)
  exact ⟨fun h => (by cases h), fun h => (by cases h), fun h => (by cases h), fun h => (by cases h)⟩

theorem cos_branch1 : BranchOK cos ⟨.fin 0, .fin π, extMap cos .ninf .pinf, arccos, arccosDer1⟩ where
  lt := extFin_lt.2 pi_pos
  mono := MonoPair.segment (.inr strictAntiOn_cos) measurable_cos (fun x _ => differentiableAt_cos)
    (by rintro y h; rw [cos_zero, cos_pi] at h; rcases h with h | h
        · linarith [h.1, h.2]
        · exact h) inv_cos1
  sign := sign_finite
  fin := fun x => ⟨_, rfl⟩

theorem cos_branch2 : BranchOK cos ⟨.fin π, .fin (2 * π), extMap cos .ninf .pinf, twopiMArccos, arccosDer2⟩ where
  lt := extFin_lt.2 (by linarith [pi_pos])
  mono := MonoPair.segment (.inl (by
      intro x hx y hy h
      rw [← cos_two_pi_sub x, ← cos_two_pi_sub y]
      exact strictAntiOn_cos ⟨by linarith [hy.2], by linarith [hy.1]⟩ ⟨by linarith [hx.2], by linarith [hx.1]⟩ (by linarith)))
    measurable_cos (fun x _ => differentiableAt_cos)
    (by rintro y h; rw [cos_two_pi, cos_pi] at h; rcases h with h | h
        · exact h
        · linarith [h.1, h.2]) inv_cos2
  sign := sign_finite
  fin := fun x => ⟨_, rfl⟩

end Pacal
