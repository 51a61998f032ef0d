import Verif.Plot.Lem

/-!
# C105: the points at which a density is sampled

The points used for plots and for the comparison with a theoretical density are as many as asked for in every piece, they are
in the piece and between the bounds asked for, increasing, and reach to the ends.
-/

namespace Pacal.Plot
open Summary

/-- **C105, finite pieces** (partial: if an end is 0, the other one must be farther away than `leftRightEpsilon`).  With
bounds `xmin`, `xmax` or without: the points are a sample of the part of the piece between the bounds; there are no points if
that part is empty or a single point. -/
theorem C105_piece_partial (eps ym : ℝ) (he : 0 < eps) (fuel n : ℕ) (xmin xmax : Option ℝ) (s : Seg ℝ) (a b : ℝ)
    (ha : s.lo = .fin a) (hb : s.hi = .fin b) :
    ∃ xs, segmentSpace eps ym fuel n xmin xmax s = some xs ∧
      (let lo := xmin.elim a (max · a)
       let hi := xmax.elim b (min · b)
       (lo < hi → Apart eps lo hi → IsSample eps lo hi n xs) ∧ (hi ≤ lo → xs = [])) := by
  have h1 : leftPoint ym fuel s = some a := by
    cases s <;> first | (cases ha; rfl) | cases ha | (cases hb)
  have h2 : rightPoint ym fuel s = some b := by
    cases s <;> first | (cases hb; rfl) | cases hb | (cases ha)
  refine ⟨space eps n (xmin.elim a (max · a)) (xmax.elim b (min · b)), ?_, fun h hA => space_sample he h hA n,
    fun h => if_pos h⟩
  unfold segmentSpace
  cases xmin <;> cases xmax <;> simp [h1, h2, ha, hb, maxLo, minHi] <;> rfl

/-- **C105, infinite pieces** (partial as above).  Whatever the density is, the search for the end of the plot stops, at least
1 away from the finite end, and the points are a sample of the piece up to there, or up to the bound that was given. -/
theorem C105_infinite_partial (eps ym : ℝ) (he : 0 < eps) (n : ℕ) (f : ℝ → ℝ) (c : ℝ) (bound : Option ℝ) :
    (∃ R, c + 1 ≤ R ∧ ∃ N, ∀ fuel, N ≤ fuel → ∃ xs, segmentSpace eps ym fuel n none bound (.pinf c f) = some xs ∧
      (let hi := bound.getD R
       (c < hi → Apart eps c hi → IsSample eps c hi n xs) ∧ (hi ≤ c → xs = []))) ∧
    (∃ L, L ≤ c - 1 ∧ ∃ N, ∀ fuel, N ≤ fuel → ∃ xs, segmentSpace eps ym fuel n bound none (.minf c f) = some xs ∧
      (let lo := bound.getD L
       (lo < c → Apart eps lo c → IsSample eps lo c n xs) ∧ (c ≤ lo → xs = []))) := by
  refine ⟨?_, ?_⟩
  · obtain ⟨R, h1, N, h2⟩ := findRightpoint_ok ym f c
    refine ⟨R, h1, N, fun fuel hf => ⟨space eps n c (bound.getD R), ?_, fun h hA => space_sample he h hA n, fun h => if_pos h⟩⟩
    unfold segmentSpace
    cases bound <;> simp [leftPoint, rightPoint, h2 fuel hf, minHi, Seg.hi] <;> rfl
  · obtain ⟨L, h1, N, h2⟩ := findLeftpoint_ok ym f c
    refine ⟨L, h1, N, fun fuel hf => ⟨space eps n (bound.getD L) c, ?_, fun h hA => space_sample he h hA n, fun h => if_pos h⟩⟩
    unfold segmentSpace
    cases bound <;> simp [leftPoint, rightPoint, h2 fuel hf, maxLo, Seg.lo] <;> rfl

/-- one piece, without bounds -/
private theorem piece_whole {eps ym : ℝ} (he : 0 < eps) (h1 : eps < 1) (n : ℕ) (s : Seg ℝ) (hw : s.WF)
    (hA : ∀ a b, s.lo = .fin a → s.hi = .fin b → a < b → Apart eps a b) :
    ∃ N, ∀ fuel, N ≤ fuel → ∃ xs, segmentSpace eps ym fuel n none none s = some xs ∧
      xs.Pairwise (· ≤ ·) ∧ (∀ x ∈ xs, InPiece x s) ∧ (s.isDirac = false → xs.length = n) ∧ (s.isDirac = true → xs = []) := by
  have fin : ∀ a b, s.lo = .fin a → s.hi = .fin b → (s.isDirac = false ↔ a < b) → ∃ N, ∀ fuel, N ≤ fuel →
      ∃ xs, segmentSpace eps ym fuel n none none s = some xs ∧ xs.Pairwise (· ≤ ·) ∧ (∀ x ∈ xs, InPiece x s) ∧
      (s.isDirac = false → xs.length = n) ∧ (s.isDirac = true → xs = []) := by
    intro a b ha hb hab
    refine ⟨0, fun fuel _ => ?_⟩
    obtain ⟨xs, e1, e2, e3⟩ := C105_piece_partial eps ym he fuel n none none s a b ha hb
    refine ⟨xs, e1, ?_⟩
    rcases lt_or_ge a b with h | h
    · obtain ⟨l1, l2, l3, _⟩ := e2 h (hA a b ha hb h)
      exact ⟨l2.imp le_of_lt, fun x hx => by
        refine ⟨?_, ?_⟩
        · rw [ha]; exact Ext.fin_le_fin.2 (l3 x hx).1
        · rw [hb]; exact Ext.fin_le_fin.2 (l3 x hx).2, fun _ => l1, fun hd => by rw [hab.2 h] at hd; cases hd⟩
    · rw [e3 h]
      exact ⟨List.Pairwise.nil, by simp, fun hd => absurd (hab.1 hd) (not_lt.2 h), fun _ => rfl⟩
  cases s with
  | fin p a b f => exact fin a b rfl rfl ⟨fun _ => hw, fun _ => rfl⟩
  | const a b c => exact fin a b rfl rfl ⟨fun _ => hw, fun _ => rfl⟩
  | dirac a m => exact fin a a rfl rfl ⟨fun h => (by cases h), fun h => absurd h (lt_irrefl _)⟩
  | pinf a f =>
    obtain ⟨R, hR, N, h⟩ := (C105_infinite_partial eps ym he n f a none).1
    refine ⟨N, fun fuel hf => ?_⟩
    obtain ⟨xs, e1, e2, -⟩ := h fuel hf
    obtain ⟨l1, l2, l3, -⟩ := e2 (by simp; linarith) ⟨fun h0 => by simp; linarith, fun h0 => by simp at h0; linarith⟩
    refine ⟨xs, e1, l2.imp le_of_lt, fun x hx => ⟨Ext.fin_le_fin.2 (l3 x hx).1, Ext.le_pinf _⟩, fun _ => l1, fun h => (by cases h)⟩
  | minf b f =>
    obtain ⟨L, hL, N, h⟩ := (C105_infinite_partial eps ym he n f b none).2
    refine ⟨N, fun fuel hf => ?_⟩
    obtain ⟨xs, e1, e2, -⟩ := h fuel hf
    obtain ⟨l1, l2, l3, -⟩ := e2 (by simp; linarith) ⟨fun h0 => by simp at h0; linarith, fun h0 => by simp; linarith⟩
    refine ⟨xs, e1, l2.imp le_of_lt, fun x hx => ⟨Ext.ninf_le _, Ext.fin_le_fin.2 (l3 x hx).2⟩, fun _ => l1, fun h => (by cases h)⟩

/-- **C105, whole functions** (partial: no bounds; pieces with an end at 0 are longer than `leftRightEpsilon`).  Every point is in
one of the pieces, every piece that is not an atom gets `n` points, and the points of all pieces are in increasing order (ends
shared by two pieces occur twice). -/
theorem C105_piecewise_partial (eps ym tol : ℝ) (he : 0 < eps) (h1 : eps < 1) (n : ℕ) (l : PF ℝ) (hl : PF.WF tol l)
    (hA : ∀ s ∈ l, ∀ a b, s.lo = .fin a → s.hi = .fin b → a < b → Apart eps a b) :
    ∃ N, ∀ fuel, N ≤ fuel → ∃ xs, piecewiseSpace eps ym fuel n none none l = some xs ∧
      xs.Pairwise (· ≤ ·) ∧ (∀ x ∈ xs, ∃ s ∈ l, InPiece x s) ∧
      xs.length = n * (l.filter fun s => !s.isDirac).length := by
  induction l with
  | nil => exact ⟨0, fun fuel _ => ⟨[], rfl, List.Pairwise.nil, by simp, by simp⟩⟩
  | cons s l ih =>
    have hl' : PF.WF tol l := ⟨fun t ht => hl.seg t (List.mem_cons_of_mem _ ht), (List.pairwise_cons.1 hl.sorted).2⟩
    obtain ⟨N, hN⟩ := ih hl' fun t ht => hA t (List.mem_cons_of_mem _ ht)
    obtain ⟨M, hM⟩ := piece_whole (ym := ym) he h1 n s (hl.seg s List.mem_cons_self) (hA s List.mem_cons_self)
    refine ⟨max N M, fun fuel hf => ?_⟩
    obtain ⟨ys, y1, y2, y3, y4⟩ := hN fuel ((le_max_left _ _).trans hf)
    obtain ⟨xs, x1, x2, x3, x4, x5⟩ := hM fuel ((le_max_right _ _).trans hf)
    refine ⟨xs ++ ys, by simp [piecewiseSpace, x1, y1], List.pairwise_append.2 ⟨x2, y2, fun x hx y hy => ?_⟩, fun x hx => ?_, ?_⟩
    · obtain ⟨t, ht, h2⟩ := y3 y hy
      have := ((x3 x hx).2.trans ((List.pairwise_cons.1 hl.sorted).1 t ht).1).trans h2.1
      exact Ext.fin_le_fin.1 this
    · rcases List.mem_append.1 hx with h | h
      · exact ⟨s, List.mem_cons_self, x3 x h⟩
      · obtain ⟨t, ht, h2⟩ := y3 x h
        exact ⟨t, List.mem_cons_of_mem _ ht, h2⟩
    · rw [List.length_append, y4]
      cases hd : s.isDirac with
      | false => rw [List.filter_cons_of_pos (by simp [hd]), x4 hd, List.length_cons]; ring
      | true => rw [List.filter_cons_of_neg (by simp [hd]), x5 hd, List.length_nil, zero_add]

/-- Disagreement: a piece that begins at 0 and is shorter than `leftRightEpsilon` is sampled outside of the piece and in
decreasing order (segments.py:244-245). -/
theorem C105_violated_tiny (eps ym : ℝ) (he : 0 < eps) (fuel : ℕ) :
    segmentSpace eps ym fuel 2 none none (.const 0 (eps / 2) 1) = some [eps, eps / 2] := by
  have h1 : ¬ (0 : ℝ) ≥ eps / 2 := by linarith
  have h2 : eps / 2 ≠ 0 := by positivity
  have h3 : ¬ (eps = 0 ∨ eps / 2 / eps > 1e2) := by
    rintro (h | h)
    · exact he.ne' h
    · rw [gt_iff_lt, lt_div_iff₀ he] at h
      norm_num at h
      linarith
  have h4 : ¬ (eps / 2 = 0 ∨ eps / (eps / 2) > 1e2) := by
    rintro (h | h)
    · exact h2 h
    · rw [gt_iff_lt, lt_div_iff₀ (by positivity)] at h
      norm_num at h
      linarith
  simp only [segmentSpace, leftPoint, rightPoint, Option.bind_eq_bind, Option.bind_some, space, if_neg h1, if_true, if_neg h2,
    zero_add, if_neg h3, if_neg h4]
  norm_num [linspace, List.range_succ]

/-- a density with an atom and an infinite piece satisfies the hypotheses -/
example : let l : PF ℝ := [.const 0 1 (1 / 2), .dirac 1 (1 / 4), .pinf 1 fun x => Real.exp (-x)]
    PF.WF (1 / 100) l ∧ ∀ s ∈ l, ∀ a b, s.lo = .fin a → s.hi = .fin b → a < b → Apart (1 / 10) a b := by
  refine ⟨⟨?_, ?_⟩, ?_⟩
  · simp [Seg.WF]
  · simp [Seg.LeftOf, Seg.lo, Seg.hi]
  · intro s hs a b ha hb hab
    simp only [List.mem_cons, List.not_mem_nil, or_false] at hs
    rcases hs with rfl | rfl | rfl
    · cases ha; cases hb; exact ⟨fun _ => by norm_num, fun h => by norm_num at h⟩
    · cases ha; cases hb; exact absurd hab (lt_irrefl _)
    · cases hb

end Pacal.Plot
