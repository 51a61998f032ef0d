import Verif.Report.Model
import Mathlib.Order.Lattice

/-!
# C106: reported interpolation errors
-/

namespace Pacal.Report
variable {K : Type} [LinearOrder K] [Zero K]

/-- Specification: the errors found in the interpolators of a piece. -/
def found : Fn K → List K
  | .adaptive e => [e]
  | .infinite vb vl => vb :: vl.toList
  | .other => []

/-- **C106, by piece** (partial: no interpolator for the tail has the larger error).  There is one entry for every piece, in the
order of the pieces, with the ends of the piece; its error is the largest of the errors found for the piece, 0 if nothing is
interpolated. -/
theorem C106_pieces_partial (l : List (Piece K)) (ht : ∀ s ∈ l, ∀ vb vl, s.fn = .infinite vb (some vl) → vl ≤ vb) :
    (errorsByPiece l).length = l.length ∧
    ∀ i (h : i < l.length), ∃ e, (errorsByPiece l)[i]? = some (l[i].lo, l[i].hi, e) ∧ (∀ x ∈ found l[i].fn, x ≤ e) ∧
      (e ∈ found l[i].fn ∨ found l[i].fn = [] ∧ e = 0) := by
  refine ⟨by simp [errorsByPiece], fun i h => ⟨pieceError l[i].fn, by simp [errorsByPiece, h], ?_, ?_⟩⟩
  · have := ht l[i] (List.getElem_mem h)
    cases hf : l[i].fn with
    | adaptive e => simp [found, pieceError]
    | other => simp [found]
    | infinite vb vl =>
      cases vl with
      | none => simp [found, pieceError]
      | some v => simpa [found, pieceError] using this vb v hf
  · cases l[i].fn <;> simp [found, pieceError]

private theorem foldl_max (es : List K) (e : K) : (∀ x ∈ e :: es, x ≤ es.foldl max e) ∧ es.foldl max e ∈ e :: es := by
  induction es generalizing e with
  | nil => simp
  | cons a es ih =>
    obtain ⟨h1, h2⟩ := ih (max e a)
    have h3 : max e a ≤ es.foldl max (max e a) := h1 _ List.mem_cons_self
    refine ⟨fun x hx => ?_, ?_⟩
    · rcases List.mem_cons.1 hx with rfl | hx
      · exact (le_max_left _ _).trans h3
      · rcases List.mem_cons.1 hx with rfl | hx
        · exact (le_max_right _ _).trans h3
        · exact h1 x (List.mem_cons_of_mem _ hx)
    · rw [List.foldl_cons]
      rcases List.mem_cons.1 h2 with h | h
      · rcases max_choice e a with h' | h' <;> rw [h, h'] <;> simp
      · exact List.mem_cons_of_mem _ (List.mem_cons_of_mem _ h)

/-- **C106, maximum** (partial as above).  The reported error of a density with at least one piece is at least every error found in
one of its interpolators, and it is one of them, or 0 if some piece is not interpolated. -/
theorem C106_maximum_partial (l : List (Piece K)) (hl : l ≠ [])
    (ht : ∀ s ∈ l, ∀ vb vl, s.fn = .infinite vb (some vl) → vl ≤ vb) :
    ∃ m, interpError l = .ok m ∧ (∀ s ∈ l, ∀ x ∈ found s.fn, x ≤ m) ∧
      ((∃ s ∈ l, m ∈ found s.fn) ∨ m = 0 ∧ ∃ s ∈ l, found s.fn = []) := by
  obtain ⟨s, l', rfl⟩ := List.exists_cons_of_ne_nil hl
  have key : ∀ t ∈ s :: l', pieceError t.fn ∈ pieceError s.fn :: (l'.map fun t => pieceError t.fn) := by
    intro t ht
    rcases List.mem_cons.1 ht with rfl | h
    · exact List.mem_cons_self
    · exact List.mem_cons_of_mem _ (List.mem_map_of_mem (f := fun t : Piece K => pieceError t.fn) h)
  obtain ⟨h1, h2⟩ := foldl_max (l'.map fun t => pieceError t.fn) (pieceError s.fn)
  have hs : ∀ t ∈ s :: l', (∀ x ∈ found t.fn, x ≤ pieceError t.fn) ∧
      (pieceError t.fn ∈ found t.fn ∨ found t.fn = [] ∧ pieceError t.fn = 0) := by
    intro t h
    obtain ⟨i, hi, rfl⟩ := List.getElem_of_mem h
    obtain ⟨e, e1, e2⟩ := (C106_pieces_partial (s :: l') ht).2 i hi
    have : e = pieceError (s :: l')[i].fn := by
      simp only [errorsByPiece, List.getElem?_map, List.getElem?_eq_getElem hi, Option.map_some, Option.some.injEq, Prod.mk.injEq] at e1
      exact e1.2.2.symm
    rw [← this]
    exact e2
  refine ⟨_, ?_, fun t h x hx => ((hs t h).1 x hx).trans (h1 _ (key t h)), ?_⟩
  · simp [interpError, errorsByPiece, Function.comp_def]
  · obtain ⟨t, h, e⟩ : ∃ t ∈ s :: l', pieceError t.fn = (l'.map fun t => pieceError t.fn).foldl max (pieceError s.fn) := by
      rcases List.mem_cons.1 h2 with h | h
      · exact ⟨s, List.mem_cons_self, h.symm⟩
      · obtain ⟨t, h, e⟩ := List.mem_map.1 h
        exact ⟨t, List.mem_cons_of_mem _ h, e⟩
    rw [← e]
    rcases (hs t h).2 with h' | ⟨h', h''⟩
    · exact .inl ⟨t, h, h'⟩
    · exact .inr ⟨h'', t, h, h'⟩

/-- Disagreement: for an unbounded piece only the interpolator near the finite end is looked at (segments.py:1149); an error of 1
in the interpolator of the tail is reported as 0. -/
theorem C106_violated_tail (c : ℚ) :
    interpError [⟨.fin c, .pinf, .infinite 0 (some (1 : ℚ))⟩] = .ok 0 ∧ (1 : ℚ) ∈ found (Fn.infinite 0 (some 1)) :=
  ⟨rfl, by simp [found]⟩

/-- Disagreement: a density without pieces has no reported error, the maximum of an empty list raises ValueError
(distr.py:251-252). -/
theorem C106_finding_empty : interpError ([] : List (Piece ℚ)) = .error .value := rfl

/-- a density with an unbounded piece, an interpolated piece and an atom -/
example : interpError [⟨.ninf, .fin 0, .infinite (1 / 8) (some (1 / 9))⟩, ⟨.fin 0, .fin 1, .adaptive (1 / 4)⟩,
    ⟨.fin 1, .fin 1, (.other : Fn ℚ)⟩] = .ok (1 / 4) := by decide +kernel

end Pacal.Report
