import Verif.Distr.LemInterp
import Verif.Law.PropsInterp

/-! C94 for the complementary distribution function. -/

namespace Pacal
open MeasureTheory Set Transform

variable {I : Interpolators} {l : PF ℝ} {e eps : ℝ}

/-- the error of interpolation on the pieces of the complementary distribution function -/
def CcumErrorAtMost (e : ℝ) (I : Interpolators) (eps : ℝ) (q : Quad) (p : QPar) (l : PF ℝ) : Prop :=
  ∀ c, PF.ccdfFun eps q p l = some c → ErrorAtMost e I c

/-- **C94, complementary distribution function** (`get_piecewise_ccdf_interp()(x)`): `P(X > x)` up to the error of interpolation, at
every point which is not in a gap between two pieces. -/
theorem C94_ccdf_partial (he : 0 ≤ eps) (h0 : 0 ≤ e) {q : Quad} {p : QPar} (h : ExactQ q p) (atInf : (ℝ → ℝ) → Option ℝ) (hne : l ≠ [])
    (hw : PF.WF eps l) (hd : PF.Dens l) (ht : PF.Touching l) (h1 : PF.law l univ = 1) (hI : CcumErrorAtMost e I eps q p l) {x : ℝ}
    (hx : PF.NotInGap l x) :
    ∃ r v, PF.ccdfInterp eps q p I atInf l = some r ∧ r.evalScalar x = some v ∧ |v - (PF.law l).real (Ioi x)| ≤ e := by
  obtain ⟨c, hc, hr, hcw, hcn, hch, hpick⟩ := ccdfFun_pick he h hne hw hd ht h1
  have hg := interpolatedCum_same I atInf
  have hw' := same_wf hg hcw
  obtain ⟨s, hs, s1, s2, s3, s4⟩ := same_pick (eps := eps) hg (hpick x)
  obtain ⟨t, ht1, ht2, ht3⟩ := cumint_cover he h hne hw hd hc hx
  have hlo : (rsubSeg 1 t).lo ≤ .fin x := by cases t <;> exact ht2
  have hhi : .fin x < (rsubSeg 1 t).hi := by cases t <;> exact ht3
  have ht1' : rsubSeg 1 t ∈ c.map (rsubSeg 1) := List.mem_map_of_mem ht1
  obtain rfl := s4 _ ht1' hcw hlo hhi
  refine ⟨_, _, by rw [PF.ccdfInterp, hr, Option.bind_some, PF.toInterpolatedCum]; exact addAll_self he hw',
    evalScalar_pick hw' ?_ ?_ s3, ?_⟩
  · intro u hu
    obtain ⟨v, hv, rfl⟩ := List.mem_map.1 hu
    rw [(hg v).2.2.1]; exact hcn v hv
  · intro u hu
    rw [List.head?_map, Option.map_eq_some_iff] at hu
    obtain ⟨v, hv, rfl⟩ := hu
    rw [(hg v).1]; exact hch v hv
  · rw [s2]
    exact interpolatedCum_error h0 atInf (hI _ hr) ht1' (hcn _ ht1') hlo hhi.le

/-- **C94, outside a bounded range** the copy of the complementary distribution function is exactly 1 on the left and exactly 0 on
the right, whatever the interpolators do. -/
theorem C94_ccdf_outside_partial (he : 0 ≤ eps) {q : Quad} {p : QPar} (h : ExactQ q p) (I : Interpolators)
    {atInf : (ℝ → ℝ) → Option ℝ} (hA : ∀ c : ℝ, atInf (fun _ => c) = some c) (hne : l ≠ [])
    (hw : PF.WF eps l) (hd : PF.Dens l) (ht : PF.Touching l) (h1 : PF.law l univ = 1) {x : ℝ} :
    ∃ r, PF.ccdfInterp eps q p I atInf l = some r ∧ ((∀ s ∈ l, .fin x < s.lo) → r.evalScalar x = some 1) ∧
      ((∀ s ∈ l, s.hi ≤ .fin x) → r.evalScalar x = some 0) := by
  obtain ⟨c, hc, hr, hcw, hcn, hch, hpick⟩ := ccdfFun_pick he h hne hw hd ht h1
  have hg := interpolatedCum_same I atInf
  have hw' := same_wf hg hcw
  obtain ⟨s, hs, s1, s2, s3, s4⟩ := same_pick (eps := eps) hg (hpick x)
  obtain ⟨o1, o2⟩ := cumint_outside he h hne hw hd hc (x := x)
  have hev := evalScalar_pick hw' (fun u hu => by
    obtain ⟨v, hv, rfl⟩ := List.mem_map.1 hu
    rw [(hg v).2.2.1]; exact hcn v hv) (fun u hu => by
    rw [List.head?_map, Option.map_eq_some_iff] at hu
    obtain ⟨v, hv, rfl⟩ := hu
    rw [(hg v).1]; exact hch v hv) s3
  refine ⟨_, by rw [PF.ccdfInterp, hr, Option.bind_some, PF.toInterpolatedCum]; exact addAll_self he hw', fun hx => ?_, fun hx => ?_⟩
  · obtain ⟨a, ha, hxa⟩ := o1 hx
    obtain rfl := s4 _ (List.mem_map_of_mem (f := rsubSeg 1) ha) hcw (ext_ninf_le _) (ext_lt.2 hxa)
    rw [hev]
    simp [Seg.interpolatedCum, Seg.fn, rsubSeg]
  · obtain ⟨a, ha, hxa⟩ := o2 hx
    obtain rfl := s4 _ (List.mem_map_of_mem (f := rsubSeg 1) ha) hcw (ext_le.2 hxa) (ext_lt_pinf x)
    rw [hev]
    simp [Seg.interpolatedCum, Seg.fn, rsubSeg, hA, Measure.real, h1]

/-- the mixture of 0 and the uniform distribution on `[0, 1]` with interpolants which are wrong by 1/100: `P(X > 1/2)` up to 1/100, and
exactly 0 at 2 -/
example : ∃ r v, PF.ccdfInterp 0 exactQuad ⟨0, 10, 6, 8⟩ offBy (fun f => some (f 0)) [.dirac 0 (1 / 2), .const 0 1 (1 / 2)] = some r ∧
    r.evalScalar (1 / 2) = some v ∧ |v - (PF.law [.dirac 0 (1 / 2), .const 0 1 (1 / 2)]).real (Ioi (1 / 2))| ≤ 1 / 100 ∧
    r.evalScalar 2 = some 0 := by
  have hw : PF.WF (0 : ℝ) [.dirac 0 (1 / 2), .const 0 1 (1 / 2)] :=
    wf_pair trivial (by norm_num [Seg.WF]) ⟨by simp [Seg.hi, Seg.lo], by simp⟩
  have hd : PF.Dens [.dirac 0 (1 / 2), .const 0 1 (1 / 2)] := dens_pair (by norm_num [Seg.Dens]) (const_dens 0 1 (by norm_num))
  have hq : ExactQ exactQuad ⟨0, 10, 6, 8⟩ := ⟨fun _ _ _ => rfl, rfl, by norm_num, by norm_num, by norm_num⟩
  have ht : PF.Touching [.dirac 0 (1 / 2), .const 0 1 (1 / 2)] := ⟨rfl, by simp [Seg.follows, Seg.hi]⟩
  have h1 : PF.law [.dirac 0 (1 / 2), .const 0 1 (1 / 2)] univ = 1 := by
    have := PF.law_finite hd
    have e : (PF.law [.dirac 0 (1 / 2), .const 0 1 (1 / 2)]).real univ = 1 := by
      rw [law_pair hd, const_mass 0 1 (by norm_num) (by norm_num), Seg.law_real_dirac (by norm_num) MeasurableSet.univ]
      norm_num
    rw [← ofReal_measureReal, e, ENNReal.ofReal_one]
  obtain ⟨r, v, h1', h2, h3⟩ := C94_ccdf_partial (e := 1 / 100) le_rfl (by norm_num) hq (fun f => some (f 0)) (by simp) hw hd ht h1
    (fun c _ => offBy_error c) (x := 1 / 2)
    (.inl ⟨.const 0 1 (1 / 2), by simp, rfl, ext_le.2 (by norm_num), ext_lt.2 (by norm_num)⟩)
  obtain ⟨r', h4, -, h5⟩ := C94_ccdf_outside_partial le_rfl hq offBy (atInf := fun f => some (f 0)) (fun _ => rfl) (by simp) hw hd ht h1 (x := 2)
  cases h1'.symm.trans h4
  refine ⟨r, v, h1', h2, h3, h5 ?_⟩
  intro s hs
  simp only [List.mem_cons, List.not_mem_nil, or_false] at hs
  rcases hs with rfl | rfl <;> exact ext_le.2 (by norm_num)

end Pacal
