import Verif.Law.Pieces
import Verif.Law.LemArrays
import Verif.Law.CdfLemmas

/-!
# Property C03 for single pieces

`seg(x)` for a piece of a distribution (`getPiecewisePDF().segments[i]`) and an array.
-/

namespace Pacal

/-- **C03 (single pieces).** For arrays of floats a piece returns, entry by entry, what it returns for numbers: the function of the piece
on its closed interval and 0 elsewhere; an atom returns 1 at its place and 0 elsewhere. -/
theorem C03_pieces (s : Seg ℝ) :
    ∃ v : ℝ → ℝ, (∀ xs, PF.pieceArray false s xs = xs.map v) ∧ (∀ x, s.call x = v x) ∧
      (s.isDirac = false → ∀ x, (s.lo ≤ .fin x → .fin x ≤ s.hi → v x = s.fn x) ∧ (.fin x < s.lo ∨ s.hi < .fin x → v x = 0)) ∧
      ∀ a m, s = .dirac a m → v a = 1 ∧ ∀ x, x ≠ a → v x = 0 := by
  classical
  refine ⟨s.call, fun xs => ?_, fun _ => rfl, fun hd x => ?_, ?_⟩
  · cases s with
    | const a b c =>
      simp only [PF.pieceArray, PF.selectConst, List.map_map]
      refine List.map_congr_left fun x _ => ?_
      simp [Seg.call, Seg.fn]
    | dirac a m =>
      simp only [PF.pieceArray, PF.putMask_map]
      refine List.map_congr_left fun x _ => ?_
      simp [Seg.call, PF.storeAs]
    | fin p a b f =>
      simp only [PF.pieceArray, PF.putMask_map]
      refine List.map_congr_left fun x _ => ?_
      simp [Seg.call, PF.storeAs]
    | minf b f =>
      simp only [PF.pieceArray, PF.putMask_map]
      refine List.map_congr_left fun x _ => ?_
      simp [Seg.call, PF.storeAs]
    | pinf a f =>
      simp only [PF.pieceArray, PF.putMask_map]
      refine List.map_congr_left fun x _ => ?_
      simp [Seg.call, PF.storeAs]
  · have e : s.call x = if s.lo ≤ .fin x ∧ .fin x ≤ s.hi then s.fn x else 0 := by
      cases s <;> first | rfl | simp [Seg.isDirac] at hd
    rw [e]
    refine ⟨fun h1 h2 => if_pos ⟨h1, h2⟩, fun h => if_neg fun ⟨h1, h2⟩ => ?_⟩
    rcases h with h | h
    · exact absurd h1 (not_le.2 h)
    · exact absurd h2 (not_le.2 h)
  · rintro a m rfl
    exact ⟨if_pos rfl, fun x hx => if_neg hx⟩

/-- **C03** fails for single pieces and arrays of integers: where the density is less than 1 the result is 0.  A piece with a constant
density returns it unchanged. -/
theorem C03_violated_piece_integers (p : Pole) {a b : ℝ} {f : ℝ → ℝ} (h : ∀ x, a ≤ x → x ≤ b → 0 ≤ f x ∧ f x < 1) (xs : List ℝ) :
    PF.pieceArray true (.fin p a b f) xs = (xs.map fun _ => 0) ∧
    ∀ c, (∀ x ∈ xs, a ≤ x ∧ x ≤ b) → PF.pieceArray true (.const a b c) xs = xs.map fun _ => c := by
  classical
  refine ⟨?_, fun c hc => ?_⟩
  · simp only [PF.pieceArray, PF.putMask_map]
    refine List.map_congr_left fun x _ => ?_
    simp only [Seg.lo, Seg.hi, Seg.fn, Bool.and_eq_true, decide_eq_true_eq, ext_le]
    split_ifs with hx
    · obtain ⟨h0, h1⟩ := h x hx.1 hx.2
      have : ⌊f x⌋ = 0 := Int.floor_eq_zero_iff.2 ⟨h0, h1⟩
      simp [PF.storeAs, h0, this]
    · rfl
  · simp only [PF.pieceArray, PF.selectConst, List.map_map]
    refine List.map_congr_left fun x hx => ?_
    simp [Seg.lo, Seg.hi, ext_le, hc x hx]

/-! ### non-vacuity -/

/-- the density `x / 2` on `[0, 1]`: at 1 it is 1/2 for the float and 0 for the integer -/
example : PF.pieceArray false (.fin .none 0 1 fun x => x / 2) [1, 3] = [1 / 2, 0] ∧
    PF.pieceArray true (.fin .none 0 1 fun x => x / 2) [1, 3] = [0, 0] := by
  constructor
  · obtain ⟨v, h1, -, h3, -⟩ := C03_pieces (.fin .none 0 1 fun x => x / 2)
    rw [h1, List.map_cons, List.map_singleton, (h3 rfl 1).1 (ext_le.2 (by norm_num)) (ext_le.2 le_rfl),
      (h3 rfl 3).2 (.inr (ext_lt.2 (by norm_num)))]
    rfl
  · exact (C03_violated_piece_integers .none (fun x h0 h1 => ⟨by linarith, by linarith⟩) _).1

end Pacal
