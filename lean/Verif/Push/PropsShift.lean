import Verif.Push.Shift
import Verif.Law.PropsCdf

/-!
Shifting and scaling (C18).  `PF.law l` is the measure of the density `l`; the law of `aX + b` is its image under
`x ↦ x * a + b`.

The full property has no separation hypothesis on atoms (`PF.WF (eps / |scale|) l` instead of `PF.WF eps l`): the code
merges atoms which come closer to each other than the tolerance `eps` (1e-14) by scaling, see `C18_violated_merge`.
For distributions without atoms, and for `|scale| ≥ 1`, the hypothesis is just well-formedness.
-/

namespace Pacal
open MeasureTheory Set

/-- **C18.** The distribution built for `scale * X + shift` exists and has exactly the law of `scale * X + shift`. -/
theorem C18_law_partial {eps : ℝ} (he : 0 ≤ eps) {l : PF ℝ} {scale : ℝ} (hs : scale ≠ 0) (shift : ℝ)
    (hl : PF.WF (eps / |scale|) l) (hd : PF.Dens l) :
    ∃ r, shiftedScaled eps l shift scale = some r ∧ PF.WF eps r ∧ PF.Dens r ∧
      PF.law r = (PF.law l).map fun x => x * scale + shift := by
  rw [shiftedScaled, if_pos hs]
  exact addAll_map he (by fun_prop) (fun s h => shift_piece hs shift (hl.seg s h) (hd s h)) (shift_compat hs shift hl)

/-- the separation hypothesis is automatic when the scale does not shrink -/
theorem C18_law_wide {eps : ℝ} (he : 0 ≤ eps) {l : PF ℝ} {scale : ℝ} (hs : 1 ≤ |scale|) (shift : ℝ)
    (hl : PF.WF eps l) (hd : PF.Dens l) :
    ∃ r, shiftedScaled eps l shift scale = some r ∧ PF.WF eps r ∧ PF.Dens r ∧
      PF.law r = (PF.law l).map fun x => x * scale + shift := by
  have h0 : scale ≠ 0 := by rintro rfl; norm_num at hs
  refine C18_law_partial he h0 shift ⟨hl.seg, hl.sorted.imp fun H => ⟨H.1, ?_⟩⟩ hd
  intro a m a' m' h1 h2
  exact lt_of_le_of_lt (div_le_self he hs) (H.2 a m a' m' h1 h2)

/-- … and when there are no atoms -/
theorem C18_law_continuous {eps : ℝ} (he : 0 ≤ eps) {l : PF ℝ} {scale : ℝ} (hs : scale ≠ 0) (shift : ℝ)
    (hl : PF.WF eps l) (hd : PF.Dens l) (hc : ∀ s ∈ l, s.isDirac = false) :
    ∃ r, shiftedScaled eps l shift scale = some r ∧ PF.WF eps r ∧ PF.Dens r ∧
      PF.law r = (PF.law l).map fun x => x * scale + shift := by
  refine C18_law_partial he hs shift ⟨hl.seg, hl.sorted.imp_of_mem fun {s t} h1 _ H => ⟨H.1, ?_⟩⟩ hd
  rintro a m a' m' rfl -
  exact absurd (hc _ h1) (by simp [Seg.isDirac])

/-- the side of a pole follows the orientation of the scale -/
theorem C18_poles (shift scale : ℝ) (s : Seg ℝ) :
    (s.shiftAndScale shift scale).hasLeftPole = (if 0 < scale then s.hasLeftPole else s.hasRightPole) ∧
    (s.shiftAndScale shift scale).hasRightPole = (if 0 < scale then s.hasRightPole else s.hasLeftPole) := by
  rcases s with ⟨_ | _ | _, a, b, f⟩ | _ | _ | _ | _ <;> simp only [Seg.shiftAndScale, gt_iff_lt] <;> split_ifs <;>
    exact ⟨rfl, rfl⟩

/-- a zero scale is rejected -/
theorem C18_zero_scale (eps : ℝ) (l : PF ℝ) (shift : ℝ) : shiftedScaled eps l shift 0 = none := by
  simp [shiftedScaled]

/-- **C18 violated by the merging of atoms**: the fair coin on 0 and 1, scaled by the tolerance, becomes a constant. -/
theorem C18_violated_merge {eps : ℝ} (he : 0 < eps) (h1 : eps < 1) :
    let l : PF ℝ := [.dirac 0 (1 / 2), .dirac 1 (1 / 2)]
    PF.WF eps l ∧ PF.Dens l ∧ ∃ r, shiftedScaled eps l 0 eps = some r ∧
      (PF.law r).real {0} = 1 ∧ ((PF.law l).map fun x => x * eps + 0).real {0} = 1 / 2 := by
  intro l
  have hd : PF.Dens l := dens_pair (by norm_num [Seg.Dens]) (by norm_num [Seg.Dens])
  have hw : PF.WF eps l := by
    refine ⟨by simp [l, Seg.WF], ?_⟩
    simp only [l, List.pairwise_cons, List.mem_singleton, forall_eq, List.not_mem_nil, false_imp_iff, implies_true,
      List.Pairwise.nil, and_true]
    refine ⟨by simp [Seg.lo, Seg.hi, Ext.fin], ?_⟩
    intro a m a' m' h h'
    cases h; cases h'
    simpa using h1
  have hd' : PF.Dens [Seg.dirac 0 1] := by intro s hs; simp at hs; subst hs; norm_num [Seg.Dens]
  refine ⟨hw, hd, [.dirac 0 1], ?_, ?_, ?_⟩
  · rw [shiftedScaled, if_pos he.ne']
    simp only [PF.copyShiftedAndScaled, l, List.map_cons, List.map_nil, Seg.shiftAndScale, PF.addAll, PF.addSegment,
      PF.mergeDirac]
    simp [PF.insertSeg, bisectLeft, bisectBy, bisectGo, insort, PF.mergeDirac, abs_of_pos he]
    norm_num
  · rw [law_singleton hd']; simp [PF.massAt, Seg.massAt]
  · rw [Measure.real, Measure.map_apply (by fun_prop) (measurableSet_singleton _)]
    have : (fun x : ℝ => x * eps + 0) ⁻¹' {0} = {0} := by
      ext x; simp [he.ne']
    rw [this]
    show (PF.law l).real {0} = _
    rw [law_singleton hd]
    simp [l, PF.massAt, Seg.massAt]

/-- non-vacuity: `1 - 2 X` for a mixture of an atom and a uniform piece -/
example : ∃ r, shiftedScaled (1 / 100) [.dirac 0 (1 / 2), .const 0 1 (1 / 2)] 1 (-2) = some r ∧
    (PF.law r).real (Iic 0) = 1 / 4 := by
  have hw : PF.WF (1 / 100 : ℝ) [.dirac 0 (1 / 2), .const 0 1 (1 / 2)] := by
    refine ⟨by simp [Seg.WF], ?_⟩
    simp only [List.pairwise_cons, List.mem_singleton, forall_eq, List.not_mem_nil, false_imp_iff, implies_true,
      List.Pairwise.nil, and_true]
    exact ⟨by simp [Seg.lo, Seg.hi, Ext.fin], by rintro a m a' m' - h; cases h⟩
  have hd : PF.Dens [Seg.dirac 0 (1 / 2), .const 0 1 (1 / 2)] :=
    dens_pair (by norm_num [Seg.Dens]) (const_dens 0 1 (by norm_num))
  obtain ⟨r, h1, -, -, h2⟩ := C18_law_wide (scale := -2) (by norm_num) (by norm_num) 1 hw hd
  refine ⟨r, h1, ?_⟩
  rw [h2, Measure.real, Measure.map_apply (by fun_prop) measurableSet_Iic]
  have : (fun x : ℝ => x * -2 + 1) ⁻¹' Iic 0 = Ici (1 / 2) := by
    ext x; simp only [mem_preimage, mem_Iic, mem_Ici]; constructor <;> intro <;> linarith
  rw [this]
  show (PF.law _).real _ = _
  have e1 : (Seg.const (0 : ℝ) 1 (1 / 2)).law.real (Ici (1 / 2)) = 1 / 4 := by
    rw [Seg.law_real rfl (const_dens 0 1 (by norm_num)) measurableSet_Ici]
    have : (fun x => (Seg.const (0 : ℝ) 1 (1 / 2)).val x) = (Ico (0 : ℝ) 1).indicator fun _ => 1 / 2 := by
      funext x; rw [const_val]; simp [indicator]
    rw [this, setIntegral_indicator measurableSet_Ico]
    have : Ici (1 / 2 : ℝ) ∩ Ico 0 1 = Ico (1 / 2) 1 := by
      ext x; simp only [mem_inter_iff, mem_Ici, mem_Ico]
      constructor
      · rintro ⟨a, b, c⟩; exact ⟨a, c⟩
      · rintro ⟨a, c⟩; exact ⟨a, by linarith, c⟩
    rw [this]
    simp [Measure.real, Real.volume_Ico]
    norm_num
  rw [PF.law_real_cons hd, PF.law_real_cons (PF.dens_cons.1 hd).2, e1, Seg.law_real_dirac (by norm_num) measurableSet_Ici]
  simp [PF.law_nil]

end Pacal
