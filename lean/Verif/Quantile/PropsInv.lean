import Verif.Quantile.LemInv
import Verif.Quantile.Props

/-!
C84: the inverse of the distribution function as a piecewise function.
-/

namespace Pacal
namespace Quantile
open MeasureTheory Set Transform Filter Topology

variable {eps : ℝ} {q : Quad} {qp : QPar} {S : Roots.Finder ℝ} {l : PF ℝ}

/-- at the ends of the pieces and at 0 the distribution function is 1 or less than 0.9999 -/
def ClearOfOne (l : PF ℝ) : Prop :=
  ∀ a : ℝ, (a = 0 ∨ ∃ s ∈ l, s.lo = .fin a ∨ s.hi = .fin a) →
    ((PF.law l).real (Iio a) = 1 ∨ (PF.law l).real (Iio a) < 1 - 1 / 10000) ∧
    ((PF.law l).real (Iic a) = 1 ∨ (PF.law l).real (Iic a) < 1 - 1 / 10000)

/-- **C84**: the inverse distribution function is the quantile function.  The full statement has no hypothesis on the values of the
distribution function at the ends of the pieces. -/
theorem C84_invcdf_partial (h : Setting eps q qp S l) (hg : ClearOfOne l) {u : ℝ} (h0 : 0 < u) (h1 : u < 1) :
    (∀ fuel, invcdf (par eps q qp S fuel) l u = quantile (par eps q qp S fuel) l u) ∧
    ∃ x : EReal, IsQuantile (PF.law l) u x ∧ ∃ N, ∀ fuel, N ≤ fuel → invcdf (par eps q qp S fuel) l u = .ok (some x) := by
  have := h.prob
  have key : ∀ fuel, invcdf (par eps q qp S fuel) l u = quantile (par eps q qp S fuel) l u := by
    intro fuel
    obtain ⟨c, vals, hc, -, hv, v0, v1, -, hvals⟩ := breakVals_spec h
    obtain ⟨b1, b2, b3, b4, -, -⟩ := invBreaks_spec v0 (fun v hv => vals_bounds (hvals v hv)) true
    have k1 := b4 v1 (by
      intro v hv
      rcases hvals v hv with rfl | rfl | ⟨a, ha, rfl | rfl⟩
      · right; norm_num
      · exact .inl rfl
      · exact (hg a ha).1
      · exact (hg a ha).2)
    simp only [invcdf, quantile, hc]
    exact (invfun_eq hv b1 b2 k1 one_pos).1 h0.le h1.le
  refine ⟨key, ?_⟩
  obtain ⟨x, hx, N, hN⟩ := C08_quantile_partial h h0.le h1.le
  exact ⟨x, hx, N, fun fuel hf => (key fuel).trans (hN fuel hf)⟩

/-- nearly all of the mass on [100, 101], the rest on [101, 102] -/
private noncomputable def thin : PF ℝ := [.const 100 101 (99999 / 100000), .const 101 102 (1 / 100000)]

private theorem thin_dens : PF.Dens thin := dens_pair (const_dens _ _ (by norm_num)) (const_dens _ _ (by norm_num))

private theorem thin_setting : Setting 0 exactQuad ⟨0, 10, 6, 8⟩ ivtFinder thin where
  eps_nonneg := le_rfl
  quad := ⟨fun _ _ _ => rfl, rfl, by norm_num, by norm_num, by norm_num⟩
  finder := ivtFinder_exact
  ne := by simp [thin]
  wf := wf_pair (by norm_num [Seg.WF]) (by norm_num [Seg.WF]) ⟨ext_le.2 (by norm_num), by simp⟩
  dens := thin_dens
  total := by
    rw [thin, law_pair thin_dens, const_mass _ _ (by norm_num) (by norm_num), const_mass _ _ (by norm_num) (by norm_num)]
    norm_num
  chain := by simp [thin, Seg.hi, Seg.lo]

private theorem const_Iic (a b x : ℝ) {c : ℝ} (hc : 0 ≤ c) : (Seg.const a b c).law.real (Iic x) = (Seg.const a b c).law.real (Iio x) := by
  rw [Seg.law_real rfl (const_dens a b hc) measurableSet_Iic, Seg.law_real rfl (const_dens a b hc) measurableSet_Iio,
    integral_Iic_eq_integral_Iio]

private theorem const_before {a b x c : ℝ} (hc : 0 ≤ c) (h : x ≤ a) : (Seg.const a b c).law.real (Iio x) = 0 :=
  law_Iio_right (const_dens a b hc) (ext_le.2 h)

private theorem const_after {a b x c : ℝ} (hc : 0 ≤ c) (hab : a ≤ b) (h : b ≤ x) : (Seg.const a b c).law.real (Iio x) = c * (b - a) := by
  rw [← const_Iic a b x hc, law_Iic_left (const_dens a b hc) (ext_le.2 h), const_mass a b hc hab]

private theorem thin_Iio (x : ℝ) (hx : x = 0 ∨ x = 100 ∨ x = 101 ∨ x = 102) :
    (PF.law thin).real (Iio x) = if x = 102 then 1 else if x = 101 then 99999 / 100000 else 0 := by
  rw [thin, law_pair thin_dens]
  rcases hx with rfl | rfl | rfl | rfl
  · rw [const_before (by norm_num) (by norm_num), const_before (by norm_num) (by norm_num)]; norm_num
  · rw [const_before (by norm_num) (by norm_num), const_before (by norm_num) (by norm_num)]; norm_num
  · rw [const_after (by norm_num) (by norm_num) (by norm_num), const_before (by norm_num) (by norm_num)]; norm_num
  · rw [const_after (by norm_num) (by norm_num) (by norm_num), const_after (by norm_num) (by norm_num) (by norm_num)]; norm_num

private theorem thin_Iic (x : ℝ) : (PF.law thin).real (Iic x) = (PF.law thin).real (Iio x) := by
  rw [thin, law_pair thin_dens, law_pair thin_dens, const_Iic _ _ _ (by norm_num), const_Iic _ _ _ (by norm_num)]

/-- **C84 violated**: values of the distribution function closer than 0.0001 are merged.  For the density 0.99999 on [100, 101] and
0.00001 on [101, 102] the last break point is therefore 0.99999, and the inverse distribution function at 0.999995 is 0. -/
theorem C84_violated_thin (fuel : ℕ) :
    let l : PF ℝ := [.const 100 101 (99999 / 100000), .const 101 102 (1 / 100000)]
    ∃ (q : Quad) (qp : QPar) (S : Roots.Finder ℝ), Setting 0 q qp S l ∧
      invcdf (par 0 q qp S fuel) l (999995 / 1000000) = .ok (some 0) ∧ ¬ IsQuantile (PF.law l) (999995 / 1000000) 0 := by
  refine ⟨_, _, _, thin_setting, ?_, ?_⟩
  · change invcdf _ thin _ = _
    have := thin_setting.prob
    obtain ⟨c, vals, hc, hC, hv, v0, v1, hmem, hvals⟩ := breakVals_spec thin_setting
    have three : ∀ v ∈ vals, v = 0 ∨ v = 99999 / 100000 ∨ v = 1 := by
      intro v hv
      rcases hvals v hv with rfl | rfl | ⟨a, ha, e⟩
      · exact .inl rfl
      · exact .inr (.inr rfl)
      · have ha' : a = 0 ∨ a = 100 ∨ a = 101 ∨ a = 102 := by
          rcases ha with ha | ⟨s, hs, ha⟩
          · exact .inl ha
          · simp only [thin, List.mem_cons, List.not_mem_nil, or_false] at hs
            rcases hs with rfl | rfl <;> simp only [Seg.lo, Seg.hi, Breaks.fin_inj] at ha <;> rcases ha with rfl | rfl <;> simp
        rw [thin_Iic, or_self, thin_Iio a ha'] at e
        split_ifs at e <;> simp [e]
    -- the value at 101
    have vt : (99999 / 100000 : ℝ) ∈ vals := by
      obtain ⟨T, -, -, u, F, huF, -, -, -, hf⟩ := cumint_shape le_rfl thin_setting.quad thin_setting.ne thin_setting.wf thin_dens
      rw [thin, cumSegs_of_not _ _ _ rfl, List.cons_append] at huF
      have hu := (List.cons.inj huF).1
      have e := (hf 100 (by rw [← hu, cumint_lo]; rfl)).1
      rw [hc, Option.some.injEq] at e
      have hm : u ∈ c := by rw [e]; simp
      have := (hmem u hm).2
      rwa [valHi_eq hC hm (b := 101) (by rw [← hu, cumint_hi]; rfl), thin_Iio 101 (by simp), if_neg (by norm_num), if_pos rfl] at this
    obtain ⟨b1, b2, b3, -, b5, b6⟩ := invBreaks_spec v0 (fun v hv => vals_bounds (hvals v hv)) true
    have kt := b6 _ vt (by
      intro w hw hlt
      rcases three w hw with rfl | rfl | rfl
      · norm_num
      · exact absurd hlt (lt_irrefl _)
      · norm_num at hlt)
    have n1 := b5 ⟨_, kt, by norm_num, by norm_num⟩
    simp only [invcdf, hc]
    refine (invfun_eq hv b1 b2 kt (by norm_num)).2 fun w hw => ?_
    rcases three w (b3 w hw) with rfl | rfl | rfl
    · norm_num
    · norm_num
    · exact absurd hw n1
  · intro hq
    have := (isQuantile_coe (x := 0).1 hq).2
    change _ ≤ (PF.law thin).real (Iic 0) at this
    rw [thin_Iic, thin_Iio 0 (.inl rfl)] at this
    norm_num at this

/-- the mixture of two atoms and a uniform distribution -/
example : Setting 0 exactQuad ⟨0, 10, 6, 8⟩ ivtFinder exDistr ∧ ClearOfOne exDistr := by
  refine ⟨exDistr_setting, fun a ha => ?_⟩
  have ha' : a = 0 ∨ a = 1 := by
    rcases ha with ha | ⟨s, hs, ha⟩
    · exact .inl ha
    · simp only [exDistr, List.mem_cons, List.not_mem_nil, or_false] at hs
      rcases hs with rfl | rfl | rfl <;> simp only [Seg.lo, Seg.hi, Breaks.fin_inj, or_self] at ha
      · exact .inl ha.symm
      · exact ha.imp Eq.symm Eq.symm
      · exact .inr ha.symm
  rw [exDistr_law _ measurableSet_Iio, exDistr_law _ measurableSet_Iic, const_Iic _ _ _ (by norm_num)]
  rcases ha' with rfl | rfl
  · rw [const_before (by norm_num) le_rfl]
    norm_num [indicator]
  · rw [const_after (by norm_num) (by norm_num) le_rfl]
    norm_num [indicator]

/-- An inverse on a given range: with `rangeY = [a, b]` the result is the inverse between `a` and `b`, on the smallest interval that
also contains 0 if a break at 0 is asked for, and 0 outside. -/
theorem C84_range (P : Finding) (c : PF ℝ) {a b : ℝ} (hab : a < b) (h : 1 / 10000 * max 1 |b| < b - a) (u : ℝ) :
    (invfun P c (some [a, b]) false u = if a ≤ u ∧ u ≤ b then inverseScalar P c u else .ok (some 0)) ∧
    invfun P c (some [a, b]) true u = if min a 0 ≤ u ∧ u ≤ max b 0 then inverseScalar P c u else .ok (some 0) := by
  have e := unique_two hab h
  have e1 : invBreaks [a, b] false = [a, b] := by
    simp only [invBreaks, e, Bool.false_and]
    rfl
  constructor
  · simp only [invfun, breakVals, Except.bind, e1]
    rfl
  · rcases lt_trichotomy a 0 with ha | rfl | ha
    · rcases lt_trichotomy b 0 with hb | rfl | hb
      · have e2 : invBreaks [a, b] true = [a, b, 0] := by
          simp only [invBreaks, e]; simp [ha.ne', hb.ne', List.orderedInsert, not_le.2 ha, not_le.2 hb]
        simp only [invfun, breakVals, Except.bind, e2, min_eq_left ha.le, max_eq_right hb.le]
        rfl
      · have e2 : invBreaks [a, 0] true = [a, 0] := by simp only [invBreaks, e]; simp
        simp only [invfun, breakVals, Except.bind, e2, min_eq_left ha.le, max_self]
        rfl
      · have e2 : invBreaks [a, b] true = [a, 0, b] := by
          simp only [invBreaks, e]; simp [ha.ne', hb.ne, List.orderedInsert, not_le.2 ha, hb.le]
        simp only [invfun, breakVals, Except.bind, e2, min_eq_left ha.le, max_eq_left hb.le]
        rfl
    · have e2 : invBreaks [0, b] true = [0, b] := by simp only [invBreaks, e]; simp
      simp only [invfun, breakVals, Except.bind, e2, min_self, max_eq_left hab.le]
      rfl
    · have hb := ha.trans hab
      have e2 : invBreaks [a, b] true = [0, a, b] := by
        simp only [invBreaks, e]; simp [ha.ne, hb.ne, List.orderedInsert, ha.le]
      simp only [invfun, breakVals, Except.bind, e2, min_eq_right ha.le, max_eq_left hb.le]
      rfl

example : (1 / 10000 : ℝ) * max 1 |3 / 4| < 3 / 4 - 1 / 4 := by norm_num [abs_of_pos]
end Quantile
end Pacal
