import Verif.Identity.LemTidy

/-!
Lemmas for `Verif.Identity.LemExact`: the part of the line covered by the pieces, after splitting and after adding two densities.
-/

namespace Pacal.Identity
open MeasureTheory ProbabilityTheory Standard Set Conv

/-- the points covered by the pieces, their ends included -/
def cov (l : List (Seg ℝ)) : Set (Ext ℝ) := {x | ∃ s ∈ l, s.lo ≤ x ∧ x ≤ s.hi}

/-- with two points all points between them -/
def Joined (A : Set (Ext ℝ)) : Prop := ∀ x y z, x ∈ A → y ∈ A → x ≤ z → z ≤ y → z ∈ A

theorem pair_of {l : PF ℝ} {R : Seg ℝ → Seg ℝ → Prop} (hr : ∀ a ∈ l, R a a) (hp : l.Pairwise fun a b => R a b ∧ R b a) {s t : Seg ℝ}
    (hs : s ∈ l) (ht : t ∈ l) : R s t := by
  induction l with
  | nil => simp at hs
  | cons a l ih =>
    rw [List.pairwise_cons] at hp
    rcases List.mem_cons.1 hs with rfl | hs' <;> rcases List.mem_cons.1 ht with rfl | ht'
    · exact hr _ hs
    · exact (hp.1 t ht').1
    · exact (hp.1 s hs').2
    · exact ih (fun a ha => hr a (List.mem_cons_of_mem _ ha)) hp.2 hs' ht'

theorem piece_apart {eps : ℝ} {l : PF ℝ} (hw : PF.WF eps l) {s t : Seg ℝ} (hs : s ∈ l) (ht : t ∈ l) (h : t.lo < s.lo) : t.hi ≤ s.lo := by
  have key : l.Pairwise fun a b => (a.lo < b.lo → a.hi ≤ b.lo) ∧ (b.lo < a.lo → b.hi ≤ a.lo) := by
    refine hw.sorted.imp_of_mem fun {a b} ha hb H => ⟨fun _ => H.1, fun h => ?_⟩
    have := Seg.lo_le_hi (hw.seg a ha)
    exact absurd h (not_lt.2 (this.trans H.1))
  exact pair_of (R := fun a b => a.lo < b.lo → a.hi ≤ b.lo) (fun a _ h => absurd h (lt_irrefl _)) key ht hs h

theorem noHole_of {eps : ℝ} {l : PF ℝ} (hw : PF.WF eps l) (hj : Joined (cov l)) : l.NoHole := by
  intro s hs
  by_cases hlow : ∀ t ∈ l, s.lo ≤ t.lo
  · exact .inl hlow
  right
  push Not at hlow
  obtain ⟨t, ht, hlt⟩ := hlow
  obtain ⟨u, ⟨hu, hus⟩, hmax⟩ := Set.exists_max_image {u | u ∈ l ∧ u.hi ≤ s.lo} (fun u => u.hi)
    ((List.finite_toSet l).subset fun u hu => hu.1) ⟨t, ht, piece_apart hw hs ht hlt⟩
  refine ⟨u, hu, le_antisymm hus (not_lt.1 fun h => ?_)⟩
  obtain ⟨z, hz1, hz2⟩ := exists_between h
  obtain ⟨v, hv, hv1, hv2⟩ := hj u.hi s.lo z ⟨u, hu, Seg.lo_le_hi (hw.seg u hu), le_rfl⟩ ⟨s, hs, le_rfl, Seg.lo_le_hi (hw.seg s hs)⟩
    hz1.le hz2.le
  have := hmax v ⟨hv, piece_apart hw hs hv (hv1.trans_lt hz2)⟩
  exact absurd (hz1.trans_le (hv2.trans this)) (lt_irrefl _)

theorem noHoleRight_of {eps : ℝ} {l : PF ℝ} (hw : PF.WF eps l) (hj : Joined (cov l)) : l.NoHoleRight := by
  intro s hs
  by_cases hlow : ∀ t ∈ l, t.hi ≤ s.hi
  · exact .inl hlow
  right
  push Not at hlow
  obtain ⟨t, ht, hlt⟩ := hlow
  have hap : ∀ u ∈ l, s.hi < u.hi → s.hi ≤ u.lo := by
    intro u hu h
    rcases lt_trichotomy s.lo u.lo with h1 | h1 | h1
    · exact piece_apart hw hu hs h1
    · have key : l.Pairwise fun a b => (a.lo = b.lo → a.hi < b.hi → a.hi ≤ b.lo) ∧ (b.lo = a.lo → b.hi < a.hi → b.hi ≤ a.lo) := by
        refine hw.sorted.imp_of_mem fun {a b} ha hb H => ⟨fun _ _ => H.1, fun h1 h2 => ?_⟩
        have := Seg.lo_le_hi (hw.seg b hb)
        exact absurd (h2.trans_le H.1) (not_lt.2 this)
      exact pair_of (R := fun a b => a.lo = b.lo → a.hi < b.hi → a.hi ≤ b.lo) (fun a _ _ h => absurd h (lt_irrefl _)) key hs hu h1 h
    · exact absurd (h.trans_le (piece_apart hw hs hu h1)) (not_lt.2 (Seg.lo_le_hi (hw.seg s hs)))
  obtain ⟨u, ⟨hu, hus⟩, hmin⟩ := Set.exists_min_image {u | u ∈ l ∧ s.hi ≤ u.lo} (fun u => u.lo)
    ((List.finite_toSet l).subset fun u hu => hu.1) ⟨t, ht, hap t ht hlt⟩
  refine ⟨u, hu, le_antisymm (not_lt.1 fun h => ?_) hus⟩
  obtain ⟨z, hz1, hz2⟩ := exists_between h
  obtain ⟨v, hv, hv1, hv2⟩ := hj s.hi u.lo z ⟨s, hs, Seg.lo_le_hi (hw.seg s hs), le_rfl⟩ ⟨u, hu, le_rfl, Seg.lo_le_hi (hw.seg u hu)⟩
    hz1.le hz2.le
  have := hmin v ⟨hv, hap v hv (hz1.trans_le hv2)⟩
  exact absurd (hz2.trans_le (this.trans hv1)) (lt_irrefl _)

theorem joined_of {l : PF ℝ} (hw : ∀ s ∈ l, s.lo < s.hi) (h : l.NoHole) : Joined (cov l) := by
  rintro x y z ⟨t, ht, ht1, ht2⟩ ⟨s, hs, hs1, hs2⟩ hxz hzy
  by_contra hz
  have hzs : z < s.lo := not_le.1 fun h => hz ⟨s, hs, h, hzy.trans hs2⟩
  obtain ⟨u, ⟨hu, hzu⟩, hmin⟩ := Set.exists_min_image {u | u ∈ l ∧ z < u.lo} (fun u => u.lo)
    ((List.finite_toSet l).subset fun u hu => hu.1) ⟨s, hs, hzs⟩
  rcases h u hu with h1 | ⟨v, hv, e⟩
  · exact absurd (hzu.trans_le ((h1 t ht).trans (ht1.trans hxz))) (lt_irrefl _)
  · by_cases hvz : z < v.lo
    · have := hmin v ⟨hv, hvz⟩
      exact absurd (hw v hv) (not_lt.2 (e ▸ this))
    · exact hz ⟨v, hv, not_lt.1 hvz, by rw [e]; exact hzu.le⟩

theorem ends_lt {eps : ℝ} {l : PF ℝ} (hw : PF.WF eps l) (hc : ContPF l) : ∀ s ∈ l, s.lo < s.hi :=
  fun s hs => (Seg.wf_iff (hc s hs)).1 (hw.seg s hs)

theorem tidy_of_cov {eps : ℝ} {l : PF ℝ} (hw : PF.WF eps l) (hne : l ≠ []) (hc : ContPF l) (hj : Joined (cov l)) : Tidy l :=
  ⟨hne, hc, noHole_of hw hj, noHoleRight_of hw hj⟩

theorem Tidy.joined {eps : ℝ} {l : PF ℝ} (h : Tidy l) (hw : PF.WF eps l) : Joined (cov l) := joined_of (ends_lt hw h.cont) h.hole

theorem cov_perm {l r : List (Seg ℝ)} (h : r.Perm l) : cov r = cov l := by
  ext x; simp only [cov, mem_setOf_eq, h.mem_iff]

theorem cov_cons (s : Seg ℝ) (l : List (Seg ℝ)) : cov (s :: l) = Icc s.lo s.hi ∪ cov l := by
  ext x; simp [cov, mem_Icc]

theorem cov_nil : cov [] = ∅ := by ext x; simp [cov]

/-! ### splitting -/

theorem cov_splitFin {pole : Pole} {a₀ b : ℝ} {f : ℝ → ℝ} : ∀ (ps : List ℝ) (a : ℝ), a ≤ b → (∀ p ∈ ps, a < p ∧ p < b) → ps.Pairwise (· < ·) →
    cov (PF.splitFin pole a₀ b f a ps) = Icc (.fin a) (.fin b) ∧ ContPF (PF.splitFin pole a₀ b f a ps)
  | [], a, _, _, _ => by simp [PF.splitFin, cov_cons, cov_nil, Seg.lo, Seg.hi, ContPF, Seg.isDirac]
  | p :: ps, a, hab, hp, hs => by
    rw [List.pairwise_cons] at hs
    have h1 := hp p (by simp)
    obtain ⟨i1, i2⟩ := cov_splitFin (pole := pole) (a₀ := a₀) (b := b) (f := f) ps p h1.2.le
      (fun q hq => ⟨hs.1 q hq, (hp q (by simp [hq])).2⟩) hs.2
    refine ⟨?_, by intro s hs; rcases List.mem_cons.1 hs with rfl | hs; exacts [rfl, i2 s hs]⟩
    rw [PF.splitFin, cov_cons, i1]
    exact Icc_union_Icc_eq_Icc (extFin_le.2 h1.1.le) (extFin_le.2 h1.2.le)

theorem cov_splitPInf {f : ℝ → ℝ} : ∀ (ps : List ℝ) (a : ℝ), (∀ p ∈ ps, a < p) → ps.Pairwise (· < ·) →
    cov (PF.splitPInf f a ps) = Icc (.fin a) .pinf ∧ ContPF (PF.splitPInf f a ps)
  | [], a, _, _ => by simp [PF.splitPInf, cov_cons, cov_nil, Seg.lo, Seg.hi, ContPF, Seg.isDirac]
  | p :: ps, a, hp, hs => by
    rw [List.pairwise_cons] at hs
    have h1 := hp p (by simp)
    obtain ⟨i1, i2⟩ := cov_splitPInf (f := f) ps p hs.1 hs.2
    refine ⟨?_, by intro s hs; rcases List.mem_cons.1 hs with rfl | hs; exacts [rfl, i2 s hs]⟩
    rw [PF.splitPInf, cov_cons, i1]
    exact Icc_union_Icc_eq_Icc (extFin_le.2 h1.le) (extFin_lt_pinf p).le

theorem cov_splitSeg {ps : List ℝ} (hp : ps.Pairwise (· < ·)) {s : Seg ℝ} (hw : s.WF) (hd : s.isDirac = false) :
    cov (PF.splitSeg ps s) = Icc s.lo s.hi ∧ ContPF (PF.splitSeg ps s) := by
  cases s with
  | fin pole a b f => exact cov_splitFin _ a (le_of_lt hw) (by simp) (hp.filter _)
  | const a b c => exact cov_splitFin _ a (le_of_lt hw) (by simp) (hp.filter _)
  | pinf a f => exact cov_splitPInf _ a (by simp) (hp.filter _)
  | minf b f =>
    have h1 : ∀ p ∈ ps.filter (fun p => p < b), p < b := by simp
    have h2 := hp.filter (fun p => decide (p < b))
    simp only [PF.splitSeg]
    cases hq : ps.filter (fun p => p < b) with
    | nil => simp [cov_cons, cov_nil, Seg.lo, Seg.hi, ContPF, Seg.isDirac]
    | cons p qs =>
      rw [hq] at h1 h2
      rw [List.pairwise_cons] at h2
      obtain ⟨i1, i2⟩ := cov_splitFin (pole := .none) (a₀ := p) (b := b) (f := f) qs p (h1 p (by simp)).le
        (fun q hq => ⟨h2.1 q hq, h1 q (by simp [hq])⟩) h2.2
      refine ⟨?_, by intro s hs; rcases List.mem_cons.1 hs with rfl | hs; exacts [rfl, i2 s hs]⟩
      dsimp only
      rw [cov_cons, i1]
      exact Icc_union_Icc_eq_Icc (ninf_lt_extFin p).le (extFin_le.2 (h1 p (by simp)).le)
  | dirac a m => simp [Seg.isDirac] at hd

theorem cov_flatMap {T : Seg ℝ → List (Seg ℝ)} : ∀ (l : List (Seg ℝ)), (∀ s ∈ l, cov (T s) = Icc s.lo s.hi) → cov (l.flatMap T) = cov l
  | [], _ => rfl
  | s :: l, h => by
    have := cov_flatMap l fun t ht => h t (List.mem_cons_of_mem _ ht)
    rw [List.flatMap_cons, cov_cons, ← h s (by simp), ← this]
    ext x
    simp only [cov, List.mem_append, mem_setOf_eq, mem_union]
    grind

theorem split_cov {eps : ℝ} (he : 0 ≤ eps) {ps : List ℝ} (hp : ps.Pairwise (· < ·)) {l r : PF ℝ} (hw : PF.WF eps l) (hc : ContPF l)
    (h : PF.splitByPoints eps l ps = some r) : cov r = cov l ∧ ContPF r := by
  rw [splitByPoints_eq he hp hw] at h
  cases h
  refine ⟨cov_flatMap l fun s hs => (cov_splitSeg hp (hw.seg s hs) (hc s hs)).1, fun t ht => ?_⟩
  obtain ⟨s, hs, hts⟩ := List.mem_flatMap.1 ht
  exact (cov_splitSeg hp (hw.seg s hs) (hc s hs)).2 t hts

theorem cov_ne {l : PF ℝ} (hw : ∀ s ∈ l, s.lo < s.hi) : (cov l).Nonempty ↔ l ≠ [] := by
  constructor
  · rintro ⟨x, s, hs, -⟩ rfl
    simp at hs
  · intro h
    obtain ⟨s, hs⟩ := List.exists_mem_of_ne_nil l h
    exact ⟨s.lo, s, hs, le_rfl, (hw s hs).le⟩

theorem split_tidy {eps : ℝ} (he : 0 ≤ eps) {ps : List ℝ} (hp : ps.Pairwise (· < ·)) {l r : PF ℝ} (hw : PF.WF eps l) (ht : Tidy l)
    (h : PF.splitByPoints eps l ps = some r) : Tidy r := by
  obtain ⟨h1, h2⟩ := split_cov he hp hw ht.cont h
  have hr : PF.WF eps r := by
    rw [splitByPoints_eq he hp hw] at h
    cases h
    exact split_wf hp hw
  refine tidy_of_cov hr ?_ h2 (h1 ▸ ht.joined hw)
  rw [← cov_ne (ends_lt hr h2), h1, cov_ne (ends_lt hw ht.cont)]
  exact ht.ne

/-! ### adding two densities -/

theorem find_ends {eps : ℝ} {l : PF ℝ} (hw : PF.WF eps l) (hc : ContPF l) {s : Seg ℝ} (hs : s ∈ l) : PF.findSegmentByEnds l s.lo s.hi ≠ none := by
  rw [PF.findSegmentByEnds, ne_eq, List.find?_eq_none]
  intro h
  exact h s hs (by simp)

theorem find_some {l : PF ℝ} {a b : Ext ℝ} (h : PF.findSegmentByEnds l a b ≠ none) : ∃ s ∈ l, s.lo = a ∧ s.hi = b := by
  obtain ⟨s, hs⟩ := Option.ne_none_iff_exists'.1 h
  have := List.find?_some hs
  exact ⟨s, List.mem_of_find?_eq_some hs, by simpa using this⟩

theorem opDiracs_cont {eps : ℝ} {op : ℝ → ℝ → ℝ} {f g : PF ℝ} (hf : ContPF f) (hg : ContPF g) : PF.opDiracs eps op f g = some f := by
  have h : ∀ {l : PF ℝ}, ContPF l → PF.diracPos l = [] := by
    intro l hl
    rw [List.eq_nil_iff_forall_not_mem]
    intro x hx
    obtain ⟨m, hm⟩ := mem_diracPos.1 hx
    exact not_dirac hl _ _ hm
  simp [PF.opDiracs, h hf, h hg, PF.opDiracsLoop]

theorem op_cov {eps : ℝ} (he : 0 ≤ eps) {op : ℝ → ℝ → ℝ} {f g r : PF ℝ} (hf : PF.WF eps f) (hg : PF.WF eps g) (cf : ContPF f) (cg : ContPF g)
    (h : PF.operation eps op f g = some r) : cov r = cov f ∪ cov g ∧ ContPF r := by
  set B₀ := PF.npUnique (PF.getBreaks f ++ PF.getBreaks g) with hB₀def
  have hB₀ : B₀.Pairwise (· < ·) := npUnique_sorted _
  have inB₀ : ∀ s, s ∈ f ∨ s ∈ g → s.lo ∈ B₀ ∧ s.hi ∈ B₀ := by
    intro s hs
    simp only [hB₀def, mem_npUnique, List.mem_append, mem_getBreaks]
    rcases hs with hs | hs
    · exact ⟨.inl ⟨s, hs, .inl rfl⟩, .inl ⟨s, hs, .inr rfl⟩⟩
    · exact ⟨.inr ⟨s, hs, .inl rfl⟩, .inr ⟨s, hs, .inr rfl⟩⟩
  have hps := finites_sorted hB₀
  obtain ⟨f', ef⟩ : ∃ f', PF.splitByPoints eps f (PF.finites B₀) = some f' := ⟨_, splitByPoints_eq he hps hf⟩
  obtain ⟨g', eg⟩ : ∃ g', PF.splitByPoints eps g (PF.finites B₀) = some g' := ⟨_, splitByPoints_eq he hps hg⟩
  obtain ⟨f1, f2⟩ := split_cov he hps hf cf ef
  obtain ⟨g1, g2⟩ := split_cov he hps hg cg eg
  have ef' := ef
  have eg' := eg
  rw [splitByPoints_eq he hps hf] at ef'
  rw [splitByPoints_eq he hps hg] at eg'
  have wf' : PF.WF eps f' := by cases ef'; exact split_wf hps hf
  have wg' : PF.WF eps g' := by cases eg'; exact split_wf hps hg
  set B := PF.npUnique (PF.getBreaks f' ++ PF.getBreaks g') with hBdef
  have hB : B.Pairwise (· < ·) := npUnique_sorted _
  have inB : ∀ s, s ∈ f' ∨ s ∈ g' → s.lo ∈ B ∧ s.hi ∈ B := by
    intro s hs
    simp only [hBdef, mem_npUnique, List.mem_append, mem_getBreaks]
    rcases hs with hs | hs
    · exact ⟨.inl ⟨s, hs, .inl rfl⟩, .inl ⟨s, hs, .inr rfl⟩⟩
    · exact ⟨.inr ⟨s, hs, .inl rfl⟩, .inr ⟨s, hs, .inr rfl⟩⟩
  have hsub : ∀ e ∈ B, e ∈ B₀ := by
    intro e hb
    simp only [hBdef, mem_npUnique, List.mem_append, mem_getBreaks] at hb
    cases ef'; cases eg'
    rcases hb with ⟨s, hs, rfl | rfl⟩ | ⟨s, hs, rfl | rfl⟩
    · exact (split_ends hf hB₀ (fun s hs => inB₀ s (.inl hs)) hs).1
    · exact (split_ends hf hB₀ (fun s hs => inB₀ s (.inl hs)) hs).2
    · exact (split_ends hg hB₀ (fun s hs => inB₀ s (.inr hs)) hs).1
    · exact (split_ends hg hB₀ (fun s hs => inB₀ s (.inr hs)) hs).2
  have kf : CutBy f' B := by cases ef'; exact cutBy_split hf hB₀ hsub (fun s hs => inB s (.inl hs))
  have kg : CutBy g' B := by cases eg'; exact cutBy_split hg hB₀ hsub (fun s hs => inB s (.inr hs))
  obtain ⟨ps, e3, w3, h1, h2⟩ := opPieces_ok (op := op) wf' wg' hB
  have c3 : ContPF ps.flatten := fun t ht => (h1 t ht).1
  have e4 : PF.operation eps op f g = some ps.flatten := by
    unfold PF.operation
    simp only [← hB₀def]
    rw [ef, eg]
    simp only [Option.bind_eq_bind, Option.bind_some, ← hBdef, e3, addAll_self he w3, opDiracs_cont c3 cf, opDiracs_cont c3 cg]
  obtain rfl : r = ps.flatten := Option.some.inj (h.symm.trans e4)
  refine ⟨?_, c3⟩
  rw [← f1, ← g1]
  ext x
  constructor
  · rintro ⟨t, ht, hx1, hx2⟩
    obtain ⟨-, -, -, h5⟩ := h1 t ht
    rw [not_and_or] at h5
    rcases h5 with h5 | h5
    · obtain ⟨s, hs, e1, e2⟩ := find_some h5
      exact .inl ⟨s, hs, e1 ▸ hx1, e2 ▸ hx2⟩
    · obtain ⟨s, hs, e1, e2⟩ := find_some h5
      exact .inr ⟨s, hs, e1 ▸ hx1, e2 ▸ hx2⟩
  · rintro (⟨s, hs, hx1, hx2⟩ | ⟨s, hs, hx1, hx2⟩)
    · have hn := neighbours_of hB (kf.lo s hs) (kf.hi s hs) (ends_lt wf' f2 s hs) (kf.cut s hs)
      rcases h2 _ _ hn with ⟨t, ht, e1, e2⟩ | h5
      · exact ⟨t, ht, e1 ▸ hx1, e2 ▸ hx2⟩
      · exact absurd h5.1 (find_ends wf' f2 hs)
    · have hn := neighbours_of hB (kg.lo s hs) (kg.hi s hs) (ends_lt wg' g2 s hs) (kg.cut s hs)
      rcases h2 _ _ hn with ⟨t, ht, e1, e2⟩ | h5
      · exact ⟨t, ht, e1 ▸ hx1, e2 ▸ hx2⟩
      · exact absurd h5.2 (find_ends wg' g2 hs)

end Pacal.Identity
