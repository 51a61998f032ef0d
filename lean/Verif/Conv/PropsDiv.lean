import Verif.Conv.DivExample

/-!
# Properties C14 (quotients) and C16 (pieces chosen, quotients)

`convdiv` is the function computed for `X / Y` (`Conv/DivModel.lean`); `opLaw` and `divDensity` are the specification.
The conditions on the arguments: non-empty lists of pieces of positive length in order; two different quotients of "marks"
(ends of pieces, 0, and the additional points at which pieces are cut) differ by more than the relative tolerance under which
break points are merged; the denominator has no atom at 0 (`DivBase`).  `DivArgs` excludes in addition the cases in which the
code is wrong, see `C14_violated_atom` and `C14_violated_zero_atom`.  The pieces may straddle 0, the density may be evaluated at
single points or at arrays (`arr`), and a break point 0 of the denominator may be `0.0` or `-0.0` (`neg0`).
-/

namespace Pacal
namespace Conv
open MeasureTheory Set Transform Breaks

variable {P : Par} {f g : PF ℝ}

/-! ### C14 -/

/-- **C14, law.** With exact integration on each pair of pieces, the distribution computed for `X / Y` is the law of the
quotient of independent `X` and `Y`. -/
theorem C14_law_partial (h : DivArgs P f g) (hP : ExactQ P.q P.qp) (hf : PF.Dens f) (hg : PF.Dens g) (neg0 arr : Bool)
    (pole : ℝ → ℝ → Pole) :
    ∃ r, convdiv P neg0 arr pole f g = some r ∧ PF.WF P.eps r ∧ PF.Dens r ∧ PF.law r = opLaw (· / ·) (PF.law f) (PF.law g) := by
  obtain ⟨r, r1, r2, r3, r4, -⟩ := div_spec h hP hf hg neg0 arr pole
  exact ⟨r, r1, r2, r3, r4⟩

/-- **C14, density**: `∫ f(xt) g(t) |t| dt` plus the contributions of the atoms, at almost every point -/
theorem C14_density_partial (h : DivArgs P f g) (hP : ExactQ P.q P.qp) (hf : PF.Dens f) (hg : PF.Dens g) (neg0 arr : Bool)
    (pole : ℝ → ℝ → Pole) :
    ∃ r, convdiv P neg0 arr pole f g = some r ∧ ∀ᵐ x, r.val x = divDensity f g x := by
  obtain ⟨r, r1, -, -, -, r5, -⟩ := div_spec h hP hf hg neg0 arr pole
  refine ⟨r, r1, ?_⟩
  filter_upwards [r5, sum2_divK (cutD_law h.eps h.fwf hf).1 (cutD_law h.eps h.gwf hg).1] with x h1 h2
  rw [h1, h2, divDensity_cut h.eps h.fwf h.gwf hf hg]

/-- **C14, atoms.** The probability of `x` is the probability that the quotient is `x`. -/
theorem C14_atoms_partial (h : DivArgs P f g) (hP : ExactQ P.q P.qp) (hf : PF.Dens f) (hg : PF.Dens g) (neg0 arr : Bool)
    (pole : ℝ → ℝ → Pole) :
    ∃ r, convdiv P neg0 arr pole f g = some r ∧ ∀ x, r.massAt x = (opLaw (· / ·) (PF.law f) (PF.law g)).real {x} := by
  obtain ⟨r, r1, -, r3, r4⟩ := C14_law_partial h hP hf hg neg0 arr pole
  exact ⟨r, r1, fun x => by rw [← r4, law_singleton r3]⟩

/-- total mass -/
theorem C14_mass (h : DivArgs P f g) (hP : ExactQ P.q P.qp) (hf : PF.Dens f) (hg : PF.Dens g) (neg0 arr : Bool)
    (pole : ℝ → ℝ → Pole) :
    ∃ r, convdiv P neg0 arr pole f g = some r ∧ PF.law r univ = PF.law f univ * PF.law g univ := by
  obtain ⟨r, r1, -, -, r4⟩ := C14_law_partial h hP hf hg neg0 arr pole
  have := PF.law_finite hg
  refine ⟨r, r1, ?_⟩
  rw [r4, opLaw, Measure.map_apply measurable_quot MeasurableSet.univ, preimage_univ, ← univ_prod_univ, Measure.prod_prod]

/-! ### C16 -/

/-- **C16** for quotients: between two consecutive break points of the result, the pairs found for any point `z` are the
pairs of pieces containing points with quotient `x`, for every `x` between the same break points.  (The pieces are those of
the arguments after they have been cut at 0.) -/
theorem C16_div_partial (h : DivBase P f g) {neg0 : Bool} {a b : Ext ℝ} (hab : [a, b] <:+: dBreaks P neg0 f g) {x z : ℝ}
    (hx : x ∈ interE a b) (hz : z ∈ interE a b) (si sj : Seg ℝ) :
    (si, sj) ∈ findSegListDiv (cutD f) (cutD g) z ↔
      si ∈ cutD f ∧ sj ∈ cutD g ∧ ∃ s ∈ si.points, ∃ t ∈ sj.points, t ≠ 0 ∧ s / t = x := by
  classical
  rw [findSegListDiv, mem_pairsBy, decide_eq_true_eq]
  refine and_congr_right fun hi' => and_congr_right fun hj => (h.same hab hx hz hi' hj).trans ⟨fun ht => ?_, ?_⟩
  · have hne : x ≠ 0 := by
      rcases h.sign hab hx hx with h | h
      · exact h.1.ne'
      · exact h.1.ne
    obtain ⟨t, t1, t2, t3, -⟩ := testDiv_points hne ((cutD_wf h.fwf).seg si hi') ((cutD_wf h.gwf).seg sj hj) (cutD_side h.fwf hi')
      (cutD_side h.gwf hj) ht
    exact ⟨x * t, t2, t, t1, t3, mul_div_cancel_right₀ x t3⟩
  · rintro ⟨s, hs, t, ht, ht0, rfl⟩
    exact testDiv_of_points h hab hi' hj hs ht ht0 hx

/-! ### disagreements -/

/-- **C14 violated by an atom in the denominator**: a variable `X` with density `2t/3` on `[1, 2]` divided by the constant 2 (as
a random variable).  The code evaluates the density of `X` at the atom instead of at `x` times the atom, so that the computed
"density" is constant and its total mass is 4/3 instead of 1. -/
theorem C14_violated_atom (he : 0 ≤ P.eps) (he' : P.eps < 1 / 32) (hP : ExactQ P.q P.qp) (neg0 arr : Bool) (pole : ℝ → ℝ → Pole) :
    ∃ r, convdiv P neg0 arr pole ramp two = some r ∧ (PF.law r).real univ = 4 / 3 ∧
      (opLaw (· / ·) (PF.law ramp) (PF.law two)).real univ = 1 := by
  have e : convdiv P neg0 arr pole ramp two = convdiv P neg0 arr pole level two :=
    convdiv_dirac P neg0 arr pole (by norm_num) (by norm_num) (by norm_num) (by norm_num) .none
  obtain ⟨r, r1, r2⟩ := C14_mass (level_two he he') hP level_dens two_dens neg0 arr pole
  refine ⟨r, e.trans r1, ?_, ?_⟩
  · rw [measureReal_def, r2, ENNReal.toReal_mul, ← measureReal_def, ← measureReal_def, level_mass, two_mass]
    norm_num
  · have := PF.law_finite ramp_dens
    have := PF.law_finite two_dens
    rw [opLaw, map_measureReal_apply measurable_quot MeasurableSet.univ, preimage_univ, ← univ_prod_univ, measureReal_prod_prod, ramp_mass,
      two_mass]
    norm_num

/-- **C14 violated by an atom at 0 in the numerator**: if `Y` has no atoms then the computed distribution of `X / Y` has no atom
at 0, but the probability that `X / Y` is 0 is the probability that `X` is 0. -/
theorem C14_violated_zero_atom (he : 0 ≤ P.eps) (hfn : f ≠ []) (hgn : g ≠ []) (hf : PF.WF P.eps f) (hg : PF.WF P.eps g)
    (hfd : PF.Dens f) (hgd : PF.Dens g) (ha : ∀ s ∈ g, s.isDirac = false) (neg0 arr : Bool) (pole : ℝ → ℝ → Pole) :
    (∀ r, convdiv P neg0 arr pole f g = some r → r.massAt 0 = 0) ∧
      (opLaw (· / ·) (PF.law f) (PF.law g)).real {0} = f.massAt 0 * (PF.law g).real univ := by
  constructor
  · intro r hr
    have ha' : ∀ s ∈ cutD g, s.isDirac = false := by
      intro s hs
      rcases isDirac_cases s with h | ⟨b, n, rfl⟩
      · exact h
      · exact absurd (ha _ ((cutD_dirac hg).1 hs)) (by simp [Seg.isDirac])
    rw [convdiv, cutD_eq he hfn hf, Option.bind_some, cutD_eq he hgn hg, Option.bind_some] at hr
    split_ifs at hr
    obtain ⟨F, hF, hr⟩ := Option.bind_eq_some_iff.1 hr
    obtain ⟨d, hd, hr⟩ := Option.bind_eq_some_iff.1 hr
    have hd' : d = [] := by
      unfold convdiracsDiv at hd
      split_ifs at hd
      rw [convdiracs_none _ _ _ ha'] at hd
      exact (Option.some.inj hd).symm
    subst hd'
    obtain rfl : F = r := by simpa [PF.diracs, PF.addAll] using hr
    exact massAt_noatom (addAll_noatom (pieces_noatom _ _ _) (by simp) hF) 0
  · have := PF.law_finite hfd
    have := PF.law_finite hgd
    have hg0 : (PF.law g).real {0} = 0 := by rw [law_singleton hgd, massAt_noatom ha]
    have hpre : (fun p : ℝ × ℝ => p.1 / p.2) ⁻¹' {0} = ({0} ×ˢ univ) ∪ (univ ×ˢ {0}) := by
      ext p; simp [div_eq_zero_iff]
    have h1 := measureReal_union_add_inter (μ := (PF.law f).prod (PF.law g)) (s := ({0} : Set ℝ) ×ˢ (univ : Set ℝ))
      (t := (univ : Set ℝ) ×ˢ ({0} : Set ℝ)) (MeasurableSet.univ.prod (measurableSet_singleton 0))
    rw [prod_inter_prod, inter_univ, univ_inter, measureReal_prod_prod, measureReal_prod_prod, measureReal_prod_prod, hg0] at h1
    rw [opLaw, map_measureReal_apply measurable_quot (measurableSet_singleton 0), hpre, ← law_singleton hfd]
    linarith

/-- the hypotheses of `C14_violated_zero_atom` with a positive probability lost: the mixture of 0 and the uniform distribution
on `[0, 1]`, divided by a uniform variable on `[1, 2]` -/
example (neg0 arr : Bool) : (∀ r, convdiv exPar neg0 arr (fun _ _ => .none) halfAtom [.const 1 2 1] = some r → r.massAt 0 = 0) ∧
    (opLaw (· / ·) (PF.law halfAtom) (PF.law [.const 1 2 1])).real {0} = 1 / 2 := by
  have hd : PF.Dens [Seg.const (1 : ℝ) 2 1] := by
    intro s hs; obtain rfl := List.mem_singleton.1 hs; exact const_dens _ _ (by norm_num)
  obtain ⟨h1, h2⟩ := C14_violated_zero_atom halfAtom_args.eps halfAtom_args.fne (g := [.const 1 2 1]) (by simp) halfAtom_args.fwf
    ⟨by intro s hs; obtain rfl := List.mem_singleton.1 hs; show (1 : ℝ) < 2; norm_num, List.pairwise_singleton ..⟩ halfAtom_dens hd
    (by intro s hs; obtain rfl := List.mem_singleton.1 hs; rfl) neg0 arr fun _ _ => .none
  refine ⟨h1, h2.trans ?_⟩
  have e1 : PF.massAt halfAtom 0 = 1 / 2 := by simp [halfAtom, PF.massAt, Seg.massAt]
  have e2 : (PF.law [Seg.const (1 : ℝ) 2 1]).real univ = 1 := by
    have e : PF.law [Seg.const (1 : ℝ) 2 1] = (Seg.const (1 : ℝ) 2 1).law := by simp [PF.law]
    rw [e, const_mass _ _ (by norm_num) (by norm_num)]
    norm_num
  rw [e1, e2]; norm_num

/-! ### non-vacuity -/

example (he : 0 ≤ P.eps) (he' : P.eps < 1 / 32) (hP : ExactQ P.q P.qp) (neg0 arr : Bool) (pole : ℝ → ℝ → Pole) :
    ∃ r, convdiv P neg0 arr pole unif unif = some r ∧ PF.law r univ = 1 := by
  have hd : PF.Dens unif := by
    intro s hs; obtain rfl := List.mem_singleton.1 hs; exact const_dens _ _ (by norm_num)
  obtain ⟨r, h1, h2⟩ := C14_mass (unif_args he he') hP hd hd neg0 arr pole
  refine ⟨r, h1, h2.trans ?_⟩
  have := PF.law_finite hd
  have e2 : (PF.law unif).real univ = 1 := by
    have e : PF.law unif = (Seg.const (-1 : ℝ) 1 (1 / 2)).law := by simp [PF.law, unif]
    rw [e, const_mass _ _ (by norm_num) (by norm_num)]
    norm_num
  have e3 : PF.law unif univ = 1 := by
    rw [← ofReal_measureReal (measure_ne_top _ _), e2, ENNReal.ofReal_one]
  rw [e3, one_mul]

end Conv

end Pacal
