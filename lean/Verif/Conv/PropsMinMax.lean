import Verif.Conv.LemMerge
import Verif.Conv.MinMaxLemmas
import Verif.Conv.SumExample

/-!
# Properties C11 (atoms of minimum and maximum), C15 (minimum and maximum), C16 (pieces chosen, minimum and maximum)

`convmin`, `convmax` are the functions computed for `min(X, Y)`, `max(X, Y)` (`Conv/MinMaxModel.lean`).  The conditions on
the arguments (`MMArgs`): non-empty lists of pieces of positive length in order, and an atom of `X` and an atom of `Y` are
at the same place or farther apart than the tolerance under which atoms are merged.  `ExactQ`: the quadrature is exact.
-/

namespace Pacal
namespace Conv
open MeasureTheory Set Transform

variable {P : Par} {f g : PF ℝ}

/-! ### C15 -/

/-- **C15, law of the minimum** -/
theorem C15_min_law_partial (h : MMArgs P f g) (hP : ExactQ P.q P.qp) (hf : PF.Dens f) (hg : PF.Dens g) :
    ∃ r, convmin P f g = some r ∧ PF.WF P.eps r ∧ PF.Dens r ∧ PF.law r = opLaw min (PF.law f) (PF.law g) := by
  obtain ⟨r, r1, r2, r3, r4, -⟩ := mm_spec (opMin hP) h hf hg
  exact ⟨r, r1, r2, r3, r4⟩

/-- **C15, law of the maximum** -/
theorem C15_max_law_partial (h : MMArgs P f g) (hP : ExactQ P.q P.qp) (hf : PF.Dens f) (hg : PF.Dens g) :
    ∃ r, convmax P f g = some r ∧ PF.WF P.eps r ∧ PF.Dens r ∧ PF.law r = opLaw max (PF.law f) (PF.law g) := by
  obtain ⟨r, r1, r2, r3, r4, -⟩ := mm_spec (opMax hP) h hf hg
  exact ⟨r, r1, r2, r3, r4⟩

/-- **C15, `P(min > z) = P(X > z) P(Y > z)`** for every `z` -/
theorem C15_min_tail_partial (h : MMArgs P f g) (hP : ExactQ P.q P.qp) (hf : PF.Dens f) (hg : PF.Dens g) :
    ∃ r, convmin P f g = some r ∧ ∀ z, (PF.law r).real (Ioi z) = (PF.law f).real (Ioi z) * (PF.law g).real (Ioi z) := by
  obtain ⟨r, r1, -, -, r4⟩ := C15_min_law_partial h hP hf hg
  have := PF.law_finite hg
  refine ⟨r, r1, fun z => ?_⟩
  have e : (fun p : ℝ × ℝ => min p.1 p.2) ⁻¹' Ioi z = Ioi z ×ˢ Ioi z := by ext p; simp [lt_min_iff]
  rw [Measure.real, r4, opLaw, Measure.map_apply tailMin.meas measurableSet_Ioi, e, Measure.prod_prod, ENNReal.toReal_mul]; rfl

/-- **C15, `P(max ≤ z) = P(X ≤ z) P(Y ≤ z)`** for every `z` -/
theorem C15_max_cdf_partial (h : MMArgs P f g) (hP : ExactQ P.q P.qp) (hf : PF.Dens f) (hg : PF.Dens g) :
    ∃ r, convmax P f g = some r ∧ ∀ z, (PF.law r).real (Iic z) = (PF.law f).real (Iic z) * (PF.law g).real (Iic z) := by
  obtain ⟨r, r1, -, -, r4⟩ := C15_max_law_partial h hP hf hg
  have := PF.law_finite hg
  refine ⟨r, r1, fun z => ?_⟩
  have e : (fun p : ℝ × ℝ => max p.1 p.2) ⁻¹' Iic z = Iic z ×ˢ Iic z := by ext p; exact (max_le_iff : max p.1 p.2 ≤ z ↔ _)
  rw [Measure.real, r4, opLaw, Measure.map_apply tailMax.meas measurableSet_Iic, e, Measure.prod_prod, ENNReal.toReal_mul]; rfl

/-- **C15, density of the minimum**: `f (1 - G) + g (1 - F)`, at almost every point -/
theorem C15_min_density_partial (h : MMArgs P f g) (hP : ExactQ P.q P.qp) (hf : PF.Dens f) (hg : PF.Dens g) :
    ∃ r, convmin P f g = some r ∧
      ∀ᵐ x, r.val x = f.val x * (PF.law g).real (Ioi x) + g.val x * (PF.law f).real (Ioi x) := by
  obtain ⟨r, r1, -, -, -, r5⟩ := mm_spec (opMin hP) h hf hg
  obtain ⟨d1, l1, v1⟩ := cutAt_law (g := g) h.eps h.fwf hf
  obtain ⟨d2, l2, v2⟩ := cutAt_law (g := f) h.eps h.gwf hg
  refine ⟨r, r1, ?_⟩
  filter_upwards [r5, sum2_tk d1 d2 Ioi] with x h1 h2
  rw [h1, h2, v1, v2, l1, l2, add_comm]

/-- **C15, density of the maximum**: `f G + g F`, at almost every point -/
theorem C15_max_density_partial (h : MMArgs P f g) (hP : ExactQ P.q P.qp) (hf : PF.Dens f) (hg : PF.Dens g) :
    ∃ r, convmax P f g = some r ∧
      ∀ᵐ x, r.val x = f.val x * (PF.law g).real (Iio x) + g.val x * (PF.law f).real (Iio x) := by
  obtain ⟨r, r1, -, -, -, r5⟩ := mm_spec (opMax hP) h hf hg
  obtain ⟨d1, l1, v1⟩ := cutAt_law (g := g) h.eps h.fwf hf
  obtain ⟨d2, l2, v2⟩ := cutAt_law (g := f) h.eps h.gwf hg
  refine ⟨r, r1, ?_⟩
  filter_upwards [r5, sum2_tk d1 d2 Iio] with x h1 h2
  rw [h1, h2, v1, v2, l1, l2, add_comm]

/-! ### C11 -/

/-- **C11, minimum.** The atoms of the result have the probabilities of the values of `min(X, Y)`, which are
`P(X = x) P(Y > x) + P(Y = x) P(X > x) + P(X = x) P(Y = x)`. -/
theorem C11_min_partial (h : MMArgs P f g) (hP : ExactQ P.q P.qp) (hf : PF.Dens f) (hg : PF.Dens g) :
    ∃ r, convmin P f g = some r ∧ ∀ x, r.massAt x = (opLaw min (PF.law f) (PF.law g)).real {x} ∧
      r.massAt x = f.massAt x * (PF.law g).real (Ioi x) + g.massAt x * (PF.law f).real (Ioi x) + f.massAt x * g.massAt x := by
  obtain ⟨r, r1, -, r3, r4⟩ := C15_min_law_partial h hP hf hg
  refine ⟨r, r1, fun x => ?_⟩
  have e : r.massAt x = (opLaw min (PF.law f) (PF.law g)).real {x} := by rw [← r4, law_singleton r3]
  exact ⟨e, e.trans (opLaw_point tailMin hf hg x)⟩

/-- **C11, maximum.** -/
theorem C11_max_partial (h : MMArgs P f g) (hP : ExactQ P.q P.qp) (hf : PF.Dens f) (hg : PF.Dens g) :
    ∃ r, convmax P f g = some r ∧ ∀ x, r.massAt x = (opLaw max (PF.law f) (PF.law g)).real {x} ∧
      r.massAt x = f.massAt x * (PF.law g).real (Iio x) + g.massAt x * (PF.law f).real (Iio x) + f.massAt x * g.massAt x := by
  obtain ⟨r, r1, -, r3, r4⟩ := C15_max_law_partial h hP hf hg
  refine ⟨r, r1, fun x => ?_⟩
  have e : r.massAt x = (opLaw max (PF.law f) (PF.law g)).real {x} := by rw [← r4, law_singleton r3]
  exact ⟨e, e.trans (opLaw_point tailMax hf hg x)⟩

/-! ### C16 -/

/-- **C16** for the minimum: between two consecutive break points of the result, the pairs found for any point `z` are
the pairs of pieces containing points with minimum `x`, for every `x` between the same break points.  (The pieces are
those of the arguments split at each other's break points.) -/
theorem C16_min (hP : ExactQ P.q P.qp) {eps : ℝ} (hf : PF.WF eps f) (hg : PF.WF eps g) {a b : Ext ℝ}
    (hab : [a, b] <:+: mmBreaks min f g) {x z : ℝ} (hx : x ∈ interE a b) (hz : z ∈ interE a b) (si sj : Seg ℝ) :
    (si, sj) ∈ findSegList min (cutAt f g) (cutAt g f) z ↔
      si ∈ cutAt f g ∧ sj ∈ cutAt g f ∧ ∃ s ∈ si.points, ∃ t ∈ sj.points, min s t = x := by
  rw [findSegList, mem_pairsBy, decide_eq_true_eq]
  refine and_congr_right fun h1 => and_congr_right fun h2 => ?_
  refine ((opMin hP).same hf hg hab hx hz h1 h2).trans (test_min_points (cutAt_wf hf h1) (cutAt_wf hg h2) ?_ ?_)
  · rintro c m rfl rfl
    exact (opMin hP).atom_out (.inl (mem_getBreaks.2 ⟨_, (cutAt_dirac hf).1 h1, .inl rfl⟩)) a b hab hx
  · rintro c m rfl rfl
    exact (opMin hP).atom_out (.inr (mem_getBreaks.2 ⟨_, (cutAt_dirac hg).1 h2, .inl rfl⟩)) a b hab hx

/-- **C16** for the maximum -/
theorem C16_max (hP : ExactQ P.q P.qp) {eps : ℝ} (hf : PF.WF eps f) (hg : PF.WF eps g) {a b : Ext ℝ}
    (hab : [a, b] <:+: mmBreaks max f g) {x z : ℝ} (hx : x ∈ interE a b) (hz : z ∈ interE a b) (si sj : Seg ℝ) :
    (si, sj) ∈ findSegList max (cutAt f g) (cutAt g f) z ↔
      si ∈ cutAt f g ∧ sj ∈ cutAt g f ∧ ∃ s ∈ si.points, ∃ t ∈ sj.points, max s t = x := by
  rw [findSegList, mem_pairsBy, decide_eq_true_eq]
  refine and_congr_right fun h1 => and_congr_right fun h2 => ?_
  refine ((opMax hP).same hf hg hab hx hz h1 h2).trans (test_max_points (cutAt_wf hf h1) (cutAt_wf hg h2) ?_ ?_)
  · rintro c m rfl rfl
    exact (opMax hP).atom_out (.inl (mem_getBreaks.2 ⟨_, (cutAt_dirac hf).1 h1, .inl rfl⟩)) a b hab hx
  · rintro c m rfl rfl
    exact (opMax hP).atom_out (.inr (mem_getBreaks.2 ⟨_, (cutAt_dirac hg).1 h2, .inl rfl⟩)) a b hab hx

/-! ### violation -/

/-- **C11 and C15** fail for values which are closer than the tolerance: if `X` is 0 or 1 with probability 1/2 and `Y` is
`eps / 2`, the minimum is 0 or `eps / 2` with probability 1/2 each; the code reports the value 0 with probability 1. -/
theorem C15_violated_merge {P : Par} (h0 : 0 < P.eps) (h1 : P.eps < 1) :
    let f : PF ℝ := [.dirac 0 (1 / 2), .dirac 1 (1 / 2)]
    let g : PF ℝ := [.dirac (P.eps / 2) 1]
    PF.WF P.eps f ∧ PF.WF P.eps g ∧ PF.Dens f ∧ PF.Dens g ∧
      (∃ r, convmin P f g = some r ∧ r.massAt 0 = 1 ∧ r.massAt (P.eps / 2) = 0) ∧
      (opLaw min (PF.law f) (PF.law g)).real {0} = 1 / 2 ∧ (opLaw min (PF.law f) (PF.law g)).real {P.eps / 2} = 1 / 2 := by
  intro f g
  have p2 : 0 < P.eps / 2 := by linarith
  have q2 : P.eps / 2 < 1 := by linarith
  have hf : PF.Dens f := dens_pair (by norm_num [Seg.Dens]) (by norm_num [Seg.Dens])
  have hg : PF.Dens g := by simp [g, PF.Dens, Seg.Dens]
  refine ⟨⟨by simp [f, Seg.WF], ?_⟩, ⟨by simp [g, Seg.WF], by simp [g]⟩, hf, hg, ?_, ?_, ?_⟩
  · simp only [f, List.pairwise_cons, List.mem_cons, List.not_mem_nil, or_false, forall_eq]
    refine ⟨⟨Ext.fin_le_fin.2 zero_le_one, ?_⟩, by simp, .nil⟩
    rintro a m a' m' h1 h2
    cases h1; cases h2
    norm_num; exact h1
  · obtain ⟨F, hF⟩ := coinMin_run h0 h1
    refine ⟨_, hF, ?_, ?_⟩
    · simp [PF.massAt, Seg.massAt]
    · simp [PF.massAt, Seg.massAt, p2.ne, p2.ne', q2.ne, q2.ne', h0.ne']
  · rw [opLaw_point tailMin hf hg]
    have e : (PF.law g).real (Ioi 0) = 1 := by
      rw [PF.law_real_eq_sum hg]
      simp only [g, List.map_cons, List.map_nil, List.sum_cons, List.sum_nil]
      rw [Seg.law_real_dirac (by norm_num) measurableSet_Ioi]
      simp [indicator, h0]
    rw [e]
    simp [f, g, PF.massAt, Seg.massAt, p2.ne, p2.ne', h0.ne']
  · rw [opLaw_point tailMin hf hg]
    have e : (PF.law f).real (Ioi (P.eps / 2)) = 1 / 2 := by
      rw [law_pair hf, Seg.law_real_dirac (by norm_num) measurableSet_Ioi, Seg.law_real_dirac (by norm_num) measurableSet_Ioi]
      simp [indicator, q2, p2.le, h0.le]
    rw [e]
    simp [f, g, PF.massAt, Seg.massAt, p2.ne, p2.ne', q2.ne, q2.ne', h0.ne']

/-! ### non-vacuity -/

/-- the arguments of the example: a fair mixture of 0 and the uniform distribution on `[0, 1]`, twice -/
theorem halfAtom_mm : MMArgs exPar halfAtom halfAtom :=
  ⟨halfAtom_args.eps, halfAtom_args.fne, halfAtom_args.gne, halfAtom_args.fwf, halfAtom_args.gwf, by
    intro a m a' m' h1 h2
    simp only [halfAtom, List.mem_cons, Seg.dirac.injEq, List.not_mem_nil, or_false, reduceCtorEq] at h1 h2
    exact .inl (h1.1.trans h2.1.symm)⟩

/-- minimum of two independent copies of a mixture of the atom 0 and a uniform distribution on `[0, 1]`: `P(min = 0) = 3/4` -/
example : ∃ r, convmin exPar halfAtom halfAtom = some r ∧ r.massAt 0 = 3 / 4 := by
  obtain ⟨r, h1, h2⟩ := C11_min_partial halfAtom_mm exPar_exact halfAtom_dens halfAtom_dens
  refine ⟨r, h1, (h2 0).2.trans ?_⟩
  have e1 : PF.massAt halfAtom 0 = 1 / 2 := by simp [halfAtom, PF.massAt, Seg.massAt]
  have e3 : (Seg.const 0 1 (1 / 2 : ℝ)).law.real (Ioi 0) = 1 / 2 := by
    have hc := const_dens 0 1 (c := 1 / 2) (by norm_num)
    rw [Seg.law_real rfl hc measurableSet_Ioi, ← integral_Ici_eq_integral_Ioi, ← Seg.law_real rfl hc measurableSet_Ici,
      const_law_in 0 1 (by norm_num) (by norm_num) measurableSet_Ici fun x h _ => h]
    norm_num
  have e2 : (PF.law halfAtom).real (Ioi 0) = 1 / 2 := by
    have hd := halfAtom_dens
    unfold halfAtom at hd ⊢
    rw [law_pair hd, Seg.law_real_dirac (by norm_num) measurableSet_Ioi, e3]
    norm_num
  rw [e1, e2]; norm_num

end Conv
end Pacal
