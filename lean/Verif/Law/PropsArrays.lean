import Verif.Law.LemArrays
import Verif.Law.PropsCdf
import Verif.Segments.PropsAssemble

/-!
# Properties C03 and C07 on whole arrays

For arrays of floats the results are elementwise.  For arrays of integers the code stores the results as integers.
-/

namespace Pacal
open MeasureTheory Set Transform

/-- **C03 (whole arrays of floats).** Every entry of the result is the value of the piece that contains the entry of the argument, and 0
outside of all pieces; at the right end of the last piece it is the value of the last piece.  The result of an entry does not depend on
the other entries. -/
theorem C03_arrays {eps : ℝ} {l : PF ℝ} (hl : PF.WF eps l) :
    ∃ v : ℝ → ℝ, (∀ xs, PF.callArray false l xs = xs.map v) ∧
      (∀ x s, (PF.segs l).getLast? = some s → s.hi = .fin x → v x = s.fn x) ∧
      ∀ x, (∀ s, (PF.segs l).getLast? = some s → s.hi ≠ .fin x) → v x = l.val x := by
  refine ⟨l.evalVec, fun xs => ?_, fun x s => (C03_eval_array hl x).1 s, fun x => (C03_eval_array hl x).2⟩
  rw [PF.callArray_map]
  simp [PF.storeAs]

/-- **C03** fails for arrays of integers: the results are stored as integers.  The density 1/2 of the uniform distribution on `[0, 2]` is
returned as 0 for the array with the integer 1, as 1/2 for the array with the float 1 and for the scalar 1. -/
theorem C03_violated_integers :
    PF.callArray true [.const 0 2 (1 / 2)] [1] = [0] ∧ PF.callArray false [.const 0 2 (1 / 2)] [1] = [1 / 2] ∧
      PF.evalScalar [.const 0 2 (1 / 2 : ℝ)] 1 = some (1 / 2) := by
  have hw : PF.WF (0 : ℝ) [.const 0 2 (1 / 2)] :=
    ⟨by intro s hs; obtain rfl := List.mem_singleton.1 hs; show (0 : ℝ) < 2; norm_num, List.pairwise_singleton ..⟩
  obtain ⟨h1, h2⟩ := C03_eval_scalar_covered hw 1 (.const 0 2 (1 / 2)) (by simp) rfl (ext_le.2 (by norm_num)) (ext_lt.2 (by norm_num))
    (by simp)
  have h3 : PF.evalVec [.const 0 2 (1 / 2 : ℝ)] 1 = 1 / 2 := by
    refine ((C03_eval_array hw 1).2 ?_).trans h2
    intro s hs
    have : Seg.const 0 2 (1 / 2 : ℝ) = s := by simpa [PF.segs, Seg.isDirac] using hs
    subst this
    simp only [Seg.hi]
    exact (ext_lt.2 (by norm_num)).ne'
  refine ⟨?_, ?_, h1⟩
  · rw [PF.callArray_map, List.map_singleton, h3]
    norm_num [PF.storeAs]
  · rw [PF.callArray_map, List.map_singleton, h3]
    rfl

/-- **C07 (whole arrays of floats)**, for entries that are not in a gap between two pieces -/
theorem C07_arrays_partial {eps : ℝ} (he : 0 ≤ eps) {q : Quad} {p : QPar} (h : ExactQ q p) {l : PF ℝ} (hne : l ≠ [])
    (hw : PF.WF eps l) (hd : PF.Dens l) (ht : PF.Touching l) {xs : List ℝ} (hx : ∀ x ∈ xs, PF.NotInGap l x) :
    PF.cdfArray eps q p false l xs = some (xs.map fun x => (PF.law l).real (Iic x)) := by
  obtain ⟨c, hc, -⟩ := cumint_pick he h hne hw hd ht
  rw [PF.cdfArray, hc, Option.map_some, PF.callArray_map]
  congr 1
  refine List.map_congr_left fun x m => ?_
  have := C07_cdf_array_partial he h hne hw hd ht (hx x m)
  rw [PF.cdfVec, hc, Option.map_some] at this
  simpa [PF.storeAs] using Option.some.inj this

/-- **C07** fails for arrays of integers: `cdf` returns 0 for all entries `x` with `P(X ≤ x) < 1` -/
theorem C07_violated_integers {eps : ℝ} (he : 0 ≤ eps) {q : Quad} {p : QPar} (h : ExactQ q p) {l : PF ℝ} (hne : l ≠ [])
    (hw : PF.WF eps l) (hd : PF.Dens l) (ht : PF.Touching l) {xs : List ℝ} (hx : ∀ x ∈ xs, PF.NotInGap l x)
    (h1 : ∀ x ∈ xs, (PF.law l).real (Iic x) < 1) :
    PF.cdfArray eps q p true l xs = some (xs.map fun _ => 0) := by
  obtain ⟨c, hc, -⟩ := cumint_pick he h hne hw hd ht
  rw [PF.cdfArray, hc, Option.map_some, PF.callArray_map]
  congr 1
  refine List.map_congr_left fun x m => ?_
  have := C07_cdf_array_partial he h hne hw hd ht (hx x m)
  rw [PF.cdfVec, hc, Option.map_some] at this
  rw [Option.some.inj this]
  have h0 : (0 : ℝ) ≤ (PF.law l).real (Iic x) := measureReal_nonneg
  have : ⌊(PF.law l).real (Iic x)⌋ = 0 := Int.floor_eq_zero_iff.2 ⟨h0, h1 x m⟩
  simp [PF.storeAs, h0, this]

/-! ### non-vacuity -/

/-- the uniform distribution on `[0, 2]` at 1: 1/2 for the array of floats, 0 for the array of integers -/
example : PF.cdfArray 0 exactQuad ⟨0, 10, 6, 8⟩ false [.const 0 2 (1 / 2)] [1] = some [1 / 2] ∧
    PF.cdfArray 0 exactQuad ⟨0, 10, 6, 8⟩ true [.const 0 2 (1 / 2)] [1] = some [0] := by
  have hE : ExactQ exactQuad ⟨0, 10, 6, 8⟩ := ⟨fun _ _ _ => rfl, rfl, by norm_num, by norm_num, by norm_num⟩
  have hc : (Seg.const 0 2 (1 / 2)).Dens := const_dens 0 2 (by norm_num)
  have hw : PF.WF (0 : ℝ) [.const 0 2 (1 / 2)] :=
    ⟨by intro s hs; obtain rfl := List.mem_singleton.1 hs; show (0 : ℝ) < 2; norm_num, List.pairwise_singleton ..⟩
  have hd : PF.Dens [.const 0 2 (1 / 2)] := by intro s hs; obtain rfl := List.mem_singleton.1 hs; exact hc
  have ht : PF.Touching [.const 0 2 (1 / 2)] := List.isChain_singleton _
  have hx : ∀ x ∈ [(1 : ℝ)], PF.NotInGap [.const 0 2 (1 / 2)] x := by
    intro x hx
    obtain rfl := List.mem_singleton.1 hx
    exact .inl ⟨_, List.mem_singleton_self _, rfl, ext_le.2 (by norm_num), ext_lt.2 (by norm_num)⟩
  have hv : (PF.law [.const 0 2 (1 / 2)]).real (Iic 1) = 1 / 2 := by
    have hi : (fun x => (Seg.const 0 2 (1 / 2 : ℝ)).val x) = (Ico (0 : ℝ) 2).indicator fun _ => 1 / 2 := by
      funext x; rw [const_val]; simp [indicator]
    have hs : Iic (1 : ℝ) ∩ Ico 0 2 = Icc 0 1 := by
      ext x
      simp only [mem_inter_iff, mem_Iic, mem_Ico, mem_Icc]
      exact ⟨fun h => ⟨h.2.1, h.1⟩, fun h => ⟨h.2, h.1, by linarith [h.2]⟩⟩
    rw [PF.law_real_eq_sum hd, List.map_singleton, List.sum_singleton, Seg.law_real rfl hc measurableSet_Iic, hi,
      setIntegral_indicator measurableSet_Ico, hs, setIntegral_const]
    simp
  refine ⟨?_, ?_⟩
  · rw [C07_arrays_partial le_rfl hE (by simp) hw hd ht hx, List.map_singleton, hv]
  · refine C07_violated_integers le_rfl hE (by simp) hw hd ht hx ?_
    intro x hx
    obtain rfl := List.mem_singleton.1 hx
    rw [hv]
    norm_num

end Pacal
