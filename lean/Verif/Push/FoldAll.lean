import Verif.Push.Fold
import Verif.Push.Spec
import Verif.Law.PropsLaw
import Verif.Law.PropsCdf

/-! The two halves of a folded function. -/

namespace Pacal
open MeasureTheory Set

theorem mem_diracs {l : PF ℝ} {a m : ℝ} : Seg.dirac a m ∈ PF.diracs l ↔ Seg.dirac a m ∈ l := by
  simp [PF.diracs, Seg.isDirac]

/-- two transformed pieces do not overlap, or are atoms at one place -/
theorem fold_compat {eps : ℝ} {g : ℝ → ℝ} {s t s' t' : Seg ℝ} (hs : FoldPiece g s s') (ht : FoldPiece g t t')
    (hord : s'.hi ≤ t'.lo ∨ t'.hi ≤ s'.lo)
    (ha : ∀ a m a' m', s = .dirac a m → t = .dirac a' m' → g a = g a' ∨ eps < |g a - g a'|) :
    Seg.Compat eps s' t' := by
  by_cases hd : s.isDirac = true ∧ t.isDirac = true
  · obtain ⟨h1, h2⟩ := hd
    cases s <;> simp [Seg.isDirac] at h1
    cases t <;> simp [Seg.isDirac] at h2
    rename_i a m a' m'
    obtain rfl := hs.atom a m rfl
    obtain rfl := ht.atom a' m' rfl
    rcases ha a m a' m' rfl rfl with h | h
    · exact .inr ⟨g a, m, m', rfl, by rw [h]⟩
    · rcases hord with ho | ho
      · refine .inl (.inl ⟨ho, ?_⟩)
        intro b n b' n' e e'
        cases e; cases e'; exact h
      · refine .inl (.inr ⟨ho, ?_⟩)
        intro b n b' n' e e'
        cases e; cases e'; rw [abs_sub_comm]; exact h
  · have hd' : ¬ (s'.isDirac = true ∧ t'.isDirac = true) := by rwa [hs.dirac, ht.dirac]
    rcases hord with ho | ho
    · refine .inl (.inl ⟨ho, ?_⟩)
      rintro b n b' n' rfl rfl
      exact absurd ⟨rfl, rfl⟩ hd'
    · refine .inl (.inr ⟨ho, ?_⟩)
      rintro b n b' n' rfl rfl
      exact absurd ⟨rfl, rfl⟩ hd'

theorem PF.law_filter_add (p : Seg ℝ → Bool) : ∀ l : PF ℝ,
    PF.law (l.filter p) + PF.law (l.filter fun s => !p s) = PF.law l
  | [] => by simp
  | s :: l => by
    have ih := PF.law_filter_add p l
    cases hp : p s
    · rw [List.filter_cons_of_neg (by simp [hp]), List.filter_cons_of_pos (by simp [hp]), PF.law_cons, PF.law_cons, ← ih,
        add_left_comm]
    · rw [List.filter_cons_of_pos (by simp [hp]), List.filter_cons_of_neg (by simp [hp]), PF.law_cons, PF.law_cons, ← ih,
        add_assoc]

/-- one half: transformed pieces are assembled -/
theorem fold_half {eps : ℝ} (he : 0 ≤ eps) {g : ℝ → ℝ} (hg : Measurable g) {l : PF ℝ} {T' : Seg ℝ → Seg ℝ}
    (hT : ∀ s ∈ l, FoldPiece g s (T' s)) (hp : l.Pairwise fun s t => (T' s).hi ≤ (T' t).lo ∨ (T' t).hi ≤ (T' s).lo)
    (ha : PF.ImagesApart eps g l) :
    ∃ r, PF.addAll eps [] (l.map T') = some r ∧ PF.WF eps r ∧ PF.Dens r ∧ PF.law r = (PF.law l).map g ∧
      ∀ b n, Seg.dirac b n ∈ r → ∃ a m, Seg.dirac a m ∈ l ∧ b = g a := by
  have hc : (l.map T').Pairwise (Seg.Compat eps) := by
    rw [List.pairwise_map]
    refine hp.imp_of_mem fun {s t} h1 h2 h => fold_compat (hT s h1) (hT t h2) h ?_
    rintro a m a' m' rfl rfl
    exact ha a m a' m' h1 h2
  obtain ⟨r, h1, h2, h3, h4, -, -, h5⟩ := addAll_law he (ss := l.map T')
    (by simpa using fun s hs => (hT s hs).wf) hc (by
      intro t ht
      obtain ⟨s, hs, rfl⟩ := List.mem_map.1 ht
      exact (hT s hs).dens)
  refine ⟨r, h1, h2, h3, by rw [h4, law_map hg fun s hs => (hT s hs).law], ?_⟩
  have key : ∀ b n, Seg.dirac b n ∈ l.map T' → ∃ a m, Seg.dirac a m ∈ l ∧ b = g a := by
    intro b n hb
    obtain ⟨s, hs, e⟩ := List.mem_map.1 hb
    have := (hT s hs).dirac
    rw [e] at this
    cases s <;> simp [Seg.isDirac] at this
    rename_i a m
    have := (hT _ hs).atom a m rfl
    rw [e] at this
    cases this
    exact ⟨_, _, hs, rfl⟩
  intro b n hb
  rcases h5 _ hb with h | ⟨a, m, m', e, h⟩
  · exact key b n h
  · cases e; exact key _ _ h

/-- both halves -/
theorem fold_main {eps : ℝ} (he : 0 ≤ eps) {g h h' : ℝ → ℝ} (H : FoldOK g h h') {R L : (ℝ → ℝ) → ℝ → ℝ}
    (hR : ∀ f y, 0 < y → R f y = f (h y) * |h' y|) (hL : ∀ f y, 0 < y → L f y = f (-h y) * |h' y|) {l : PF ℝ}
    (hl : PF.WF eps l) (hd : PF.Dens l) (ha : PF.ImagesApart eps g l) :
    ∃ l' P N, PF.splitByPoints eps l [0] = some l' ∧ PF.foldLoop eps (Seg.foldComp g R L) l' ([], []) = some (P, N) ∧
      PF.WF eps P ∧ PF.WF eps N ∧ PF.Dens P ∧ PF.Dens N ∧ PF.AtomsApart eps P N ∧
      PF.law P + PF.law N = (PF.law l).map g := by
  have hp0 : [(0 : ℝ)].Pairwise (· < ·) := by simp
  obtain ⟨l', e1, hw', hd', hlaw⟩ := C04_law he [0] hp0 l hl hd
  obtain ⟨l'', e2, -, -, hdir, -, hcut⟩ := C04_split he [0] hp0 l hl
  obtain rfl : l' = l'' := by rw [e1] at e2; exact Option.some.inj e2
  have ha' : PF.ImagesApart eps g l' := by
    intro a m a' m' h1 h2
    rw [← mem_diracs, hdir, mem_diracs] at h1 h2
    exact ha a m a' m' h1 h2
  have hneg : ∀ s ∈ l', ¬ s.lo ≥ .fin 0 → s.lo < .fin 0 ∧ s.hi ≤ .fin 0 := by
    intro s hs h
    have h := not_le.1 h
    exact ⟨h, not_lt.1 fun h2 => hcut 0 (by simp) s hs ⟨h, h2⟩⟩
  -- the transformation of each piece
  have hT : ∀ s, ∃ t, s ∈ l' → (Seg.foldComp g R L s = some t ∧ FoldPiece g s t ∧
      (s.lo ≥ .fin 0 → t.lo = foldEnd g s.lo ∧ t.hi = foldEnd g s.hi) ∧
      (¬ s.lo ≥ .fin 0 → t.lo = foldEnd g s.hi ∧ t.hi = foldEnd g s.lo)) := by
    intro s
    by_cases hs : s ∈ l'
    · by_cases h0 : s.lo ≥ .fin 0
      · obtain ⟨t, h1, h2, h3, h4⟩ := fold_piece_right (L := L) H hR (hw'.seg s hs) (hd' s hs) h0
        exact ⟨t, fun _ => ⟨h1, h2, fun _ => ⟨h3, h4⟩, fun h => absurd h0 h⟩⟩
      · obtain ⟨t, h1, h2, h3, h4⟩ := fold_piece_left (R := R) H hL (hw'.seg s hs) (hd' s hs) (hneg s hs h0).1 (hneg s hs h0).2
        exact ⟨t, fun _ => ⟨h1, h2, fun h => absurd h h0, fun _ => ⟨h3, h4⟩⟩⟩
    · exact ⟨s, fun h => absurd h hs⟩
  choose T' hT' using hT
  have hsub1 : ∀ s ∈ l'.filter (fun s => decide (s.lo ≥ .fin 0)), s ∈ l' ∧ s.lo ≥ .fin 0 := by
    intro s hs; simpa using hs
  have hsub2 : ∀ s ∈ l'.filter (fun s => !decide (s.lo ≥ .fin 0)), s ∈ l' ∧ ¬ s.lo ≥ .fin 0 := by
    intro s hs; simpa using hs
  obtain ⟨P, p1, p2, p3, p4, p5⟩ := fold_half he H.meas (l := l'.filter fun s => decide (s.lo ≥ .fin 0)) (T' := T')
    (fun s hs => (hT' s (hsub1 s hs).1).2.1) (by
      refine (hw'.sorted.filter _).imp_of_mem fun {s t} h1 h2 hst => .inl ?_
      obtain ⟨m1, q1⟩ := hsub1 s h1
      obtain ⟨m2, q2⟩ := hsub1 t h2
      rw [((hT' s m1).2.2.1 q1).2, ((hT' t m2).2.2.1 q2).1]
      refine H.end_mono ?_ hst.1
      cases hsd : s.isDirac
      · exact q1.trans ((Seg.wf_iff hsd).1 (hw'.seg s m1)).le
      · cases s <;> simp [Seg.isDirac] at hsd
        exact q1)
    (fun a m a' m' h1 h2 => ha' a m a' m' (hsub1 _ h1).1 (hsub1 _ h2).1)
  obtain ⟨N, n1, n2, n3, n4, n5⟩ := fold_half he H.meas (l := l'.filter fun s => !decide (s.lo ≥ .fin 0)) (T' := T')
    (fun s hs => (hT' s (hsub2 s hs).1).2.1) (by
      refine (hw'.sorted.filter _).imp_of_mem fun {s t} h1 h2 hst => .inr ?_
      obtain ⟨m1, q1⟩ := hsub2 s h1
      obtain ⟨m2, q2⟩ := hsub2 t h2
      rw [((hT' s m1).2.2.2 q1).1, ((hT' t m2).2.2.2 q2).2, ← H.foldEnd_neg t.lo, ← H.foldEnd_neg s.hi]
      exact H.end_mono (FoldOK.negEnd_nonneg.2 (hneg t m2 q2).1.le) (FoldOK.negEnd_le hst.1))
    (fun a m a' m' h1 h2 => ha' a m a' m' (hsub2 _ h1).1 (hsub2 _ h2).1)
  refine ⟨l', P, N, e1, foldLoop_eq eps _ T' l' [] [] (fun s hs => (hT' s hs).1) p1 n1, p2, n2, p3, n3, ?_, ?_⟩
  · intro b n b' n' hb hb'
    obtain ⟨a, m, h1, rfl⟩ := p5 b n hb
    obtain ⟨a', m', h2, rfl⟩ := n5 b' n' hb'
    exact ha' a m a' m' (hsub1 _ h1).1 (hsub2 _ h2).1
  · rw [p4, n4, ← Measure.map_add _ _ H.meas, PF.law_filter_add, hlaw]

theorem abs_fold : FoldOK (fun x => |x|) (fun y => y) (fun _ => 1) where
  meas := by fun_prop
  diff x hx := differentiableAt_abs hx
  even x := abs_neg x
  mono x hx y hy hxy := by
    show |x| < |y|
    rwa [abs_of_nonneg (by simpa using hx), abs_of_nonneg (by simpa using hy)]
  zero := abs_zero
  inv y hy := ⟨hy, abs_of_pos hy⟩
  deriv y _ := hasDerivAt_id' y

theorem square_fold : FoldOK (fun x => x * x) (fun y => y ^ (0.5 : ℝ)) (fun y => 0.5 / √y) where
  meas := by fun_prop
  diff x _ := by fun_prop
  even x := by ring
  mono x hx y hy hxy := by
    have hx : 0 ≤ x := hx
    show x * x < y * y
    nlinarith
  zero := by simp
  inv y hy := by
    refine ⟨Real.rpow_pos_of_pos hy _, ?_⟩
    rw [← Real.rpow_add hy]; norm_num
  deriv y hy := by
    refine (Real.hasDerivAt_rpow_const (Or.inl hy.ne')).congr_deriv ?_
    rw [Real.sqrt_eq_rpow, show (0.5 : ℝ) - 1 = -(1 / 2) by norm_num, Real.rpow_neg hy.le]
    rfl

theorem getBreaks_finites (l : PF ℝ) : (PF.finites (PF.getBreaks l)).Pairwise (· < ·) := by
  refine finites_sorted ?_
  unfold PF.getBreaks
  split_ifs
  · exact List.Pairwise.nil
  · exact npUnique_sorted _

/-- no separation hypothesis is needed without atoms -/
theorem PF.ImagesApart.of_continuous {eps : ℝ} {g : ℝ → ℝ} {l : PF ℝ} (hc : ∀ s ∈ l, s.isDirac = false) :
    PF.ImagesApart eps g l := by
  intro a m a' m' h
  exact absurd (hc _ h) (by simp [Seg.isDirac])

/-! concrete atoms -/

theorem addSegment_nil_dirac (eps a m : ℝ) : PF.addSegment eps [] (.dirac a m) = some [.dirac a m] := by
  simp [PF.addSegment, PF.mergeDirac, PF.insertSeg, bisectLeft, bisectBy, bisectGo, insort]

theorem addSegment_merge {eps a b : ℝ} (m n : ℝ) (h : |b - a| ≤ eps) :
    PF.addSegment eps [.dirac a m] (.dirac b n) = some [.dirac a (m + n)] := by
  simp [PF.addSegment, PF.mergeDirac, h]

theorem split_dirac (eps : ℝ) (a m : ℝ) (points : List ℝ) :
    PF.splitByPoints eps [.dirac a m] points = some [.dirac a m] := by
  simp [PF.splitByPoints, PF.splitSeg, PF.addAll, addSegment_nil_dirac]

theorem add_merge {eps a b : ℝ} (m n : ℝ) (hab : b < a) (h : |b - a| ≤ eps) :
    PF.operation eps (fun x y => x + y) [.dirac a m] [.dirac b n] = some [.dirac a (m + n)] := by
  simp [PF.operation, split_dirac, PF.getBreaks, PF.npUnique, PF.insUniq, Seg.lo, Seg.hi, hab.ne',
    PF.commonList, PF.findSegmentByEnds, not_lt.2 hab.le]
  simp [PF.opPair, PF.opDiracs, PF.diracPos, PF.opDiracsLoop, PF.addAll, PF.getDirac, addSegment_nil_dirac, hab.ne, hab.ne',
    addSegment_merge m n h]

theorem wf_diracs {eps a b : ℝ} (m n : ℝ) (hab : a ≤ b) (h : eps < |a - b|) : PF.WF eps [.dirac a m, .dirac b n] := by
  refine ⟨by simp [Seg.WF], ?_⟩
  simp only [List.pairwise_cons, List.mem_singleton, forall_eq, List.not_mem_nil, false_imp_iff, implies_true,
    List.Pairwise.nil, and_true]
  refine ⟨extFin_le.2 hab, ?_⟩
  intro a' m' b' n' h1 h2
  cases h1; cases h2
  exact h

theorem split_diracs_eq {eps a b : ℝ} (he : 0 ≤ eps) (m n : ℝ) (hab : a ≤ b) (h : eps < |a - b|) (points : List ℝ)
    (hp : points.Pairwise (· < ·)) :
    PF.splitByPoints eps [.dirac a m, .dirac b n] points = some [.dirac a m, .dirac b n] := by
  rw [splitByPoints_eq he hp (wf_diracs m n hab h)]
  simp [PF.splitSeg]

end Pacal
