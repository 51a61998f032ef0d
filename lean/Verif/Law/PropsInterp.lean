import Verif.Law.LemInterp

/-!
# C94: interpolated copies

The copy of a density or distribution function with interpolants instead of its functions (`toInterpolated`,
`get_piecewise_cdf_interp`): pieces, poles and atoms are those of the original, the values differ by no more than the interpolants
from the functions, and the copy of a distribution function is exactly 0 left and exactly the total probability right of a bounded range.
-/

namespace Pacal
open MeasureTheory Set Transform

variable {I : Interpolators} {l : PF ℝ} {e eps : ℝ}

/-- **C94, pieces.** The copy is made, it has one piece for every piece of the original, in the same place, with the same poles, and
all atoms with their probabilities. -/
theorem C94_pieces (he : 0 ≤ eps) (hl : PF.WF eps l) (I : Interpolators) :
    ∃ r, PF.toInterpolated eps I l = some r ∧ PF.WF eps r ∧ List.Forall₂ SamePlace l r ∧ ∀ x, r.massAt x = l.massAt x := by
  have hw := same_wf (interpolated_same I) hl
  refine ⟨l.map (Seg.interpolated I), addAll_self he hw, hw, ?_, same_massAt (interpolated_same I) l⟩
  rw [List.forall₂_map_right_iff, List.forall₂_same]
  exact fun s _ => interpolated_same I s

/-- **C94, values at a number**: at a point of a piece which is not an atom, the copy is right up to the error of interpolation. -/
theorem C94_value (he : 0 ≤ eps) (hl : PF.WF eps l) (hI : ErrorAtMost e I l) {x : ℝ}
    (hx : ∃ s ∈ l, s.isDirac = false ∧ s.lo ≤ .fin x ∧ .fin x < s.hi) (hatom : ∀ m, .dirac x m ∉ l) :
    ∃ r v w, PF.toInterpolated eps I l = some r ∧ l.evalScalar x = some v ∧ r.evalScalar x = some w ∧ |w - v| ≤ e := by
  have hw := same_wf (interpolated_same I) hl
  obtain ⟨s, hs, h1, h2, h3⟩ := hx
  have h4 := interpolated_same I s
  refine ⟨_, _, _, addAll_self he hw, (C03_eval_scalar_covered hl x s hs h1 h2 h3 hatom).1,
    (C03_eval_scalar_covered hw x (s.interpolated I) (List.mem_map_of_mem hs) (h4.2.2.1.trans h1) (by rw [h4.1]; exact h2)
      (by rw [h4.2.1]; exact h3) ?_).1, error_piece hI s hs x h1 h2 h3.le⟩
  intro m hm
  obtain ⟨t, ht, e⟩ := List.mem_map.1 hm
  have h5 := interpolated_same I t
  rw [e] at h5
  exact hatom m (h5.dirac ▸ ht)

/-- **C94, values on arrays**: right up to the error of interpolation at every point. -/
theorem C94_array (he : 0 ≤ eps) (h0 : 0 ≤ e) (hl : PF.WF eps l) (hI : ErrorAtMost e I l) (x : ℝ) :
    ∃ r, PF.toInterpolated eps I l = some r ∧ |r.evalVec x - l.evalVec x| ≤ e :=
  ⟨_, addAll_self he (same_wf (interpolated_same I) hl),
    same_vec (interpolated_same I) h0 (fun s hs h1 h2 h3 => error_piece hI s hs x h1 h2 h3) hl.seg⟩

/-- **C94, probabilities**: on a bounded range the probabilities of all events are right up to the error of interpolation times the
length of the range. -/
theorem C94_law (he : 0 ≤ eps) (hl : PF.WF eps l) (hI : ErrorAtMost e I l) {L : ℝ} (hL : HasLength l L) (hd : PF.Dens l) :
    ∃ r, PF.toInterpolated eps I l = some r ∧ (PF.Dens r → ∀ S, MeasurableSet S → |(PF.law r).real S - (PF.law l).real S| ≤ e * L) :=
  ⟨_, addAll_self he (same_wf (interpolated_same I) hl), fun hd' _ hS => same_law (interpolated_same I) hL hS (error_piece hI) hl.seg hd hd'⟩

/-- **C94, distribution function** (`get_piecewise_cdf_interp()(x)`): `P(X ≤ x)` up to the error of interpolation, at every point which
is not in a gap between two pieces.  (`Touching`: the condition of C07, without which the distribution function itself is wrong.) -/
theorem C94_cdf_partial (he : 0 ≤ eps) (h0 : 0 ≤ e) {q : Quad} {p : QPar} (h : ExactQ q p) (atInf : (ℝ → ℝ) → Option ℝ) (hne : l ≠ [])
    (hw : PF.WF eps l) (hd : PF.Dens l) (ht : PF.Touching l) (hI : CumErrorAtMost e I eps q p l) {x : ℝ} (hx : PF.NotInGap l x) :
    ∃ r v, PF.cdfInterp eps q p I atInf l = some r ∧ r.evalScalar x = some v ∧ |v - (PF.law l).real (Iic x)| ≤ e := by
  obtain ⟨c, hc, hcw, hcn, hch, hpick⟩ := cumint_pick he h hne hw hd ht
  have hg := interpolatedCum_same I atInf
  have hw' := same_wf hg hcw
  obtain ⟨s, hs, s1, s2, s3, s4⟩ := same_pick (eps := eps) hg (hpick x)
  obtain ⟨t, ht1, ht2, ht3⟩ := cumint_cover he h hne hw hd hc hx
  obtain rfl := s4 t ht1 hcw ht2 ht3
  refine ⟨_, _, by rw [PF.cdfInterp, hc, Option.bind_some, PF.toInterpolatedCum]; exact addAll_self he hw',
    evalScalar_pick hw' ?_ ?_ s3, ?_⟩
  · intro u hu
    obtain ⟨v, hv, rfl⟩ := List.mem_map.1 hu
    rw [(hg v).2.2.1]; exact hcn v hv
  · intro u hu
    rw [List.head?_map, Option.map_eq_some_iff] at hu
    obtain ⟨v, hv, rfl⟩ := hu
    rw [(hg v).1]; exact hch v hv
  · rw [s2]
    have hb := error_piece (hI c hc) t ht1 x (hcn t ht1) ht2 ht3.le
    rcases t with _ | _ | ⟨b, f⟩ | ⟨a, f⟩ | _
    · exact hb
    · exact hb
    · unfold Seg.interpolatedCum
      dsimp only
      split_ifs
      · simpa using h0
      · exact hb
    · unfold Seg.interpolatedCum
      dsimp only
      split_ifs
      · simpa using h0
      · exact hb
    · exact hb

/-- **C94, outside a bounded range** the copy of the distribution function is exactly 0 on the left and exactly the total probability
on the right, whatever the interpolators do. -/
theorem C94_cdf_outside_partial (he : 0 ≤ eps) {q : Quad} {p : QPar} (h : ExactQ q p) (I : Interpolators)
    {atInf : (ℝ → ℝ) → Option ℝ} (hA : ∀ c : ℝ, atInf (fun _ => c) = some c) (hne : l ≠ [])
    (hw : PF.WF eps l) (hd : PF.Dens l) (ht : PF.Touching l) {x : ℝ} :
    ∃ r, PF.cdfInterp eps q p I atInf l = some r ∧ ((∀ s ∈ l, .fin x < s.lo) → r.evalScalar x = some 0) ∧
      ((∀ s ∈ l, s.hi ≤ .fin x) → r.evalScalar x = some ((PF.law l).real univ)) := by
  obtain ⟨c, hc, hcw, hcn, hch, hpick⟩ := cumint_pick he h hne hw hd ht
  have hg := interpolatedCum_same I atInf
  have hw' := same_wf hg hcw
  obtain ⟨s, hs, s1, s2, s3, s4⟩ := same_pick (eps := eps) hg (hpick x)
  obtain ⟨o1, o2⟩ := cumint_outside he h hne hw hd hc (x := x)
  have hev := evalScalar_pick hw' (fun u hu => by
    obtain ⟨v, hv, rfl⟩ := List.mem_map.1 hu
    rw [(hg v).2.2.1]; exact hcn v hv) (fun u hu => by
    rw [List.head?_map, Option.map_eq_some_iff] at hu
    obtain ⟨v, hv, rfl⟩ := hu
    rw [(hg v).1]; exact hch v hv) s3
  refine ⟨_, by rw [PF.cdfInterp, hc, Option.bind_some, PF.toInterpolatedCum]; exact addAll_self he hw', fun hx => ?_, fun hx => ?_⟩
  · obtain ⟨a, ha, hxa⟩ := o1 hx
    obtain rfl := s4 _ ha hcw (ext_ninf_le _) (ext_lt.2 hxa)
    rw [hev]
    simp [Seg.interpolatedCum, Seg.fn]
  · obtain ⟨a, ha, hxa⟩ := o2 hx
    obtain rfl := s4 _ ha hcw (ext_le.2 hxa) (ext_lt_pinf x)
    rw [hev]
    simp [Seg.interpolatedCum, Seg.fn, hA]

/-! ### an example: the mixture of 0 and the uniform distribution on `[0, 1]`, and interpolants which are wrong by 1/100 -/

/-- interpolants that are too large by 1/100 -/
noncomputable def offBy : Interpolators := ⟨fun f _ _ x => f x + 1 / 100, fun f _ _ x => f x + 1 / 100, fun f _ _ x => f x + 1 / 100,
  fun f _ x => f x + 1 / 100, fun f _ x => f x + 1 / 100⟩

theorem offBy_error (l : PF ℝ) : ErrorAtMost (1 / 100) offBy l := by
  constructor <;> intros <;> simp only [offBy, add_sub_cancel_left] <;> norm_num

/-- the density is 1/2 + 1/100 at 1/4, the probability of 0 remains 1/2 -/
example : ∃ r, PF.toInterpolated 0 offBy [.dirac 0 (1 / 2), .const 0 1 (1 / 2)] = some r ∧ r.massAt 0 = 1 / 2 ∧
    |r.evalVec (1 / 4) - 1 / 2| ≤ 1 / 100 := by
  have hw : PF.WF (0 : ℝ) [.dirac 0 (1 / 2), .const 0 1 (1 / 2)] :=
    wf_pair trivial (by norm_num [Seg.WF]) ⟨by simp [Seg.hi, Seg.lo], by simp⟩
  obtain ⟨r, h1, -, -, h2⟩ := C94_pieces le_rfl hw offBy
  obtain ⟨r', h3, h4⟩ := C94_array le_rfl (by norm_num) hw (offBy_error _) (1 / 4)
  cases h1.symm.trans h3
  refine ⟨r, h1, ?_, ?_⟩
  · rw [h2]; norm_num [PF.massAt, Seg.massAt]
  · convert h4 using 3
    unfold PF.evalVec
    have h5 : (Ext.fin (0 : ℝ) ≤ Ext.fin (1 / 4) ∧ Ext.fin ((1 : ℝ) / 4) < Ext.fin 1) := ⟨ext_le.2 (by norm_num), ext_lt.2 (by norm_num)⟩
    have h6 : ¬ Ext.fin ((1 : ℝ) / 4) = Ext.fin 1 := fun h => by rw [Ext.fin_inj] at h; norm_num at h
    simp only [PF.segs, Seg.isDirac, List.filter_cons, List.filter_nil, Bool.not_true, Bool.not_false, if_true, Bool.false_eq_true,
      if_false, List.getLast?_singleton, PF.evalVecLoop, Seg.lo, Seg.hi, if_neg h6, Seg.fn]
    exact (if_pos h5).symm

/-- its distribution function: 3/4 at 1/2 up to 1/100, and exactly 1 at 2 -/
example : ∃ r v, PF.cdfInterp 0 exactQuad ⟨0, 10, 6, 8⟩ offBy (fun f => some (f 0)) [.dirac 0 (1 / 2), .const 0 1 (1 / 2)] = some r ∧
    r.evalScalar (1 / 2) = some v ∧ |v - (PF.law [.dirac 0 (1 / 2), .const 0 1 (1 / 2)]).real (Iic (1 / 2))| ≤ 1 / 100 ∧
    r.evalScalar 2 = some ((PF.law [.dirac 0 (1 / 2), .const 0 1 (1 / 2)]).real univ) := by
  have hw : PF.WF (0 : ℝ) [.dirac 0 (1 / 2), .const 0 1 (1 / 2)] :=
    wf_pair trivial (by norm_num [Seg.WF]) ⟨by simp [Seg.hi, Seg.lo], by simp⟩
  have hd : PF.Dens [.dirac 0 (1 / 2), .const 0 1 (1 / 2)] := dens_pair (by norm_num [Seg.Dens]) (const_dens 0 1 (by norm_num))
  have hq : ExactQ exactQuad ⟨0, 10, 6, 8⟩ := ⟨fun _ _ _ => rfl, rfl, by norm_num, by norm_num, by norm_num⟩
  have ht : PF.Touching [.dirac 0 (1 / 2), .const 0 1 (1 / 2)] := ⟨rfl, by simp [Seg.follows, Seg.hi]⟩
  obtain ⟨r, v, h1, h2, h3⟩ := C94_cdf_partial (e := 1 / 100) le_rfl (by norm_num) hq (fun f => some (f 0)) (by simp) hw hd ht
    (fun c _ => offBy_error c) (x := 1 / 2)
    (.inl ⟨.const 0 1 (1 / 2), by simp, rfl, ext_le.2 (by norm_num), ext_lt.2 (by norm_num)⟩)
  obtain ⟨r', h4, -, h5⟩ := C94_cdf_outside_partial le_rfl hq offBy (atInf := fun f => some (f 0)) (fun _ => rfl) (by simp) hw hd ht (x := 2)
  cases h1.symm.trans h4
  refine ⟨r, v, h1, h2, h3, h5 ?_⟩
  intro s hs
  simp only [List.mem_cons, List.not_mem_nil, or_false] at hs
  rcases hs with rfl | rfl <;> exact ext_le.2 (by norm_num)

/-- the length of its range is 1 -/
example : HasLength [.dirac 0 (1 / 2), .const 0 1 (1 / 2)] (1 - 0 + 0) := .dirac _ _ (.const _ _ _ .nil)

end Pacal
