import Verif.Conv.ProdDensity
import Verif.Conv.SumExample

/-!
# Properties C13 (products) and C16 (pieces chosen, products)

`convprod` is the function computed for `X * Y` (`Conv/ProdModel.lean`); `opLaw` and `prodDensity` are the specification.
The conditions on the arguments (`ProdArgs`): non-empty lists of pieces of positive length in order; two different products
of "marks" (ends of pieces, -1, 0, 1) differ by more than the relative tolerance under which break points are merged; and
neither factor is 0 with probability one, unless both have atoms.  The pieces may straddle 0.
-/

namespace Pacal
namespace Conv
open MeasureTheory Set Transform Breaks

variable {P : Par} {f g : PF ℝ}

/-! ### C13 -/

/-- **C13, law.** With exact integration on each pair of pieces, the distribution computed for `X * Y` is the law of the
product of independent `X` and `Y`: any number of pieces, any signs, poles, infinite ends and atoms. -/
theorem C13_law_partial (h : ProdArgs P f g) (hP : ExactQ P.q P.qp) (hf : PF.Dens f) (hg : PF.Dens g) (pole : ℝ → ℝ → Pole) :
    ∃ r, convprod P pole f g = some r ∧ PF.WF P.eps r ∧ PF.Dens r ∧ PF.law r = opLaw (· * ·) (PF.law f) (PF.law g) := by
  obtain ⟨r, r1, r2, r3, r4, -⟩ := prod_spec h hP hf hg pole
  exact ⟨r, r1, r2, r3, r4⟩

/-- **C13, density**: `∫ f(t) g(x/t) / |t| dt` plus the contributions of the atoms, at almost every point -/
theorem C13_density_partial (h : ProdArgs P f g) (hP : ExactQ P.q P.qp) (hf : PF.Dens f) (hg : PF.Dens g) (pole : ℝ → ℝ → Pole) :
    ∃ r, convprod P pole f g = some r ∧ ∀ᵐ x, r.val x = prodDensity f g x := by
  obtain ⟨r, r1, -, -, -, r5⟩ := prod_spec h hP hf hg pole
  refine ⟨r, r1, ?_⟩
  filter_upwards [r5, sum2_prodK (cut3_law h.eps h.fwf hf).1 (cut3_law h.eps h.gwf hg).1] with x h1 h2
  rw [h1, h2, prodDensity_cut h.eps h.fwf h.gwf hf hg]

/-- **C13, atoms.** The probability of `x` is the probability that the product is `x`; for `x = 0` this is
`P(X = 0) + P(Y = 0) - P(X = 0) P(Y = 0)`. -/
theorem C13_atoms_partial (h : ProdArgs P f g) (hP : ExactQ P.q P.qp) (hf : PF.Dens f) (hg : PF.Dens g) (pole : ℝ → ℝ → Pole) :
    ∃ r, convprod P pole f g = some r ∧ (∀ x, r.massAt x = (opLaw (· * ·) (PF.law f) (PF.law g)).real {x}) ∧
      r.massAt 0 = f.massAt 0 * (PF.law g).real univ + g.massAt 0 * (PF.law f).real univ - f.massAt 0 * g.massAt 0 := by
  obtain ⟨r, r1, -, r3, r4⟩ := C13_law_partial h hP hf hg pole
  have := PF.law_finite hf
  have := PF.law_finite hg
  have e : ∀ x, r.massAt x = (opLaw (· * ·) (PF.law f) (PF.law g)).real {x} := fun x => by rw [← r4, law_singleton r3]
  refine ⟨r, r1, e, ?_⟩
  rw [e, ← law_singleton hf, ← law_singleton hg]
  have hpre : (fun p : ℝ × ℝ => p.1 * p.2) ⁻¹' {0} = ({0} ×ˢ univ) ∪ (univ ×ˢ {0}) := by
    ext p; simp [mul_eq_zero]
  have h1 := measureReal_union_add_inter (μ := (PF.law f).prod (PF.law g)) (s := ({0} : Set ℝ) ×ˢ (univ : Set ℝ))
    (t := (univ : Set ℝ) ×ˢ ({0} : Set ℝ)) (MeasurableSet.univ.prod (measurableSet_singleton 0))
  rw [prod_inter_prod, inter_univ, univ_inter, measureReal_prod_prod, measureReal_prod_prod, measureReal_prod_prod] at h1
  rw [opLaw, map_measureReal_apply measurable_prod (measurableSet_singleton 0), hpre]
  linarith

/-- total mass -/
theorem C13_mass (h : ProdArgs P f g) (hP : ExactQ P.q P.qp) (hf : PF.Dens f) (hg : PF.Dens g) (pole : ℝ → ℝ → Pole) :
    ∃ r, convprod P pole f g = some r ∧ PF.law r univ = PF.law f univ * PF.law g univ := by
  obtain ⟨r, r1, -, -, r4⟩ := C13_law_partial h hP hf hg pole
  have := PF.law_finite hg
  refine ⟨r, r1, ?_⟩
  rw [r4, opLaw, Measure.map_apply measurable_prod MeasurableSet.univ, preimage_univ, ← univ_prod_univ, Measure.prod_prod]

/-! ### C16 -/

/-- **C16** for products: between two consecutive break points of the result, the pairs found for any point `z` are the
pairs of pieces containing points with product `x`, for every `x` between the same break points.  (The pieces are those of
the arguments split at -1, 0, 1.) -/
theorem C16_prod_partial (h : ProdArgs P f g) {a b : Ext ℝ} (hab : [a, b] <:+: pBreaks P f g) {x z : ℝ} (hx : x ∈ interE a b)
    (hz : z ∈ interE a b) (si sj : Seg ℝ) :
    (si, sj) ∈ findSegListMul (cut3 f) (cut3 g) z ↔
      si ∈ cut3 f ∧ sj ∈ cut3 g ∧ ∃ s ∈ si.points, ∃ t ∈ sj.points, s * t = x := by
  rw [findSegListMul, mem_pairsBy, decide_eq_true_eq]
  refine and_congr_right fun hi' => and_congr_right fun hj => ?_
  refine (h.same hab hx hz hi' hj).trans ⟨points_of_test ((cut3_wf h.fwf).seg _ hi') ((cut3_wf h.gwf).seg _ hj), ?_⟩
  rintro ⟨s, hs, t, ht, rfl⟩
  exact test_of_points h hab hi' hj hs ht hx

/-! ### the constant 0 -/

theorem fmul_zero_some {b x : EReal} (h : fmul 0 b = some x) : x = 0 := by
  unfold fmul at h
  split_ifs at h
  rw [zero_mul] at h
  exact (Option.some.inj h).symm

/-- **C13 violated by the constant 0**: the product of the constant 0 (as a random variable) and a variable without atoms is
0, but the code fails: no piece and no atom has been added to the result when the piece at 0 is looked up in it. -/
theorem C13_violated_zero (he : 0 ≤ P.eps) (m : ℝ) (hg : PF.WF P.eps g) (hgd : PF.Dens g)
    (ha : ∀ s ∈ g, s.isDirac = false) (pole : ℝ → ℝ → Pole) :
    convprod P pole [.dirac 0 m] g = none ∧
      opLaw (· * ·) (PF.law [.dirac 0 m]) (PF.law g) = (ENNReal.ofReal m * PF.law g univ) • Measure.dirac 0 := by
  refine ⟨?_, ?_⟩
  swap
  · have := PF.law_finite hgd
    rw [show PF.law [Seg.dirac (0 : ℝ) m] = ENNReal.ofReal m • Measure.dirac 0 by simp [PF.law, Seg.law], opLaw_dirac_left measurable_prod]
    have e : (HMul.hMul (0 : ℝ) : ℝ → ℝ) = fun _ => 0 := by ext y; simp
    rw [e, Measure.map_const, smul_smul]
  have hw : PF.WF P.eps [Seg.dirac (0 : ℝ) m] :=
    ⟨by intro s hs; rw [List.mem_singleton.1 hs]; trivial, List.pairwise_singleton ..⟩
  have e0 : cut3 [Seg.dirac (0 : ℝ) m] = [.dirac 0 m] := by simp [cut3, PF.splitSeg]
  rw [convprod, cut3_eq he hw, Option.bind_some, cut3_eq he hg, Option.bind_some, e0]
  obtain ⟨c1, c2, -⟩ := C17_epsunique_partial P.eps (prodTable [Seg.dirac (0 : ℝ) m] (cut3 g))
  have hz : ∀ x ∈ prodBreaks P [Seg.dirac (0 : ℝ) m] (cut3 g), x = Ext.fin 0 := by
    intro x hx
    obtain ⟨a, h1, b, -, h3⟩ := mem_prodTable.1 (c2 x hx)
    obtain ⟨s, hs, h1⟩ := mem_getBreaks.1 h1
    obtain rfl := List.mem_singleton.1 hs
    have ha : (a : EReal) = 0 := by rcases h1 with h1 | h1 <;> exact h1
    exact fmul_zero_some (show fmul 0 b = some x from ha ▸ h3)
  have hd : convdiracs P.eps (· * ·) [Seg.dirac (0 : ℝ) m] (cut3 g) = some [] := by
    have : diracTable (· * ·) [Seg.dirac (0 : ℝ) m] (cut3 g) = [] := by
      have : pairsBy (fun si sj : Seg ℝ => si.isDirac && sj.isDirac) [Seg.dirac (0 : ℝ) m] (cut3 g) = [] := by
        refine List.eq_nil_iff_forall_not_mem.2 fun pr hpr => ?_
        obtain ⟨-, h2, h3⟩ := mem_pairsBy.1 hpr
        rcases isDirac_cases pr.2 with h | ⟨b, n, h⟩
        · simp [h] at h3
        · rw [h] at h2
          simpa [Seg.isDirac] using ha _ ((cut3_dirac hg).1 h2)
      rw [diracTable, this]; rfl
    rw [convdiracs, this]; rfl
  have hp : ∀ (F : ℝ → ℝ → ℝ) {l : List (Ext ℝ)}, l.Pairwise (· < ·) → (∀ x ∈ l, x = Ext.fin 0) → pieces pole F l = [] := by
    intro F l hs hl
    match l, hs, hl with
    | [], _, _ => rfl
    | [x], _, _ => rfl
    | x :: y :: l, hs, hl =>
      exfalso
      have := (List.pairwise_cons.1 hs).1 y (by simp)
      rw [hl x (by simp), hl y (by simp)] at this
      exact lt_irrefl _ this
  split_ifs with hb
  · rfl
  · rw [hp _ (show (prodBreaks P [Seg.dirac (0 : ℝ) m] (cut3 g)).Pairwise (· < ·) from c1.imp fun h => h.1) hz, hd]
    rfl

/-! ### non-vacuity -/

theorem halfAtom_marks {x : ℝ} (h : x ∈ halfAtom.marks) : x = -1 ∨ x = 0 ∨ x = 1 := by
  rcases h with h | h
  · rcases halfAtom_ends h with h | h
    · exact .inr (.inl h)
    · exact .inr (.inr h)
  · simpa using h

theorem halfAtom_prod : ProdArgs exPar halfAtom halfAtom := by
  refine ⟨halfAtom_args.eps, halfAtom_args.fne, halfAtom_args.gne, halfAtom_args.fwf, halfAtom_args.gwf, ?_,
    .inr ⟨⟨0, 1 / 2, by norm_num, by simp [halfAtom]⟩, 0, 1 / 2, by norm_num, by simp [halfAtom]⟩⟩
  intro a ha b hb a' ha' b' hb' hne
  rcases halfAtom_marks ha with rfl | rfl | rfl <;> rcases halfAtom_marks hb with rfl | rfl | rfl <;>
    rcases halfAtom_marks ha' with rfl | rfl | rfl <;> rcases halfAtom_marks hb' with rfl | rfl | rfl <;>
    first
    | (exfalso; apply hne; norm_num; done)
    | norm_num [exPar]

/-- product of two independent copies of a mixture of the atom 0 and a uniform distribution on `[0, 1]`: `P(XY = 0) = 3/4` -/
example : ∃ r, convprod exPar (fun _ _ => .none) halfAtom halfAtom = some r ∧ r.massAt 0 = 3 / 4 := by
  obtain ⟨r, h1, -, h2⟩ := C13_atoms_partial halfAtom_prod exPar_exact halfAtom_dens halfAtom_dens fun _ _ => .none
  refine ⟨r, h1, h2.trans ?_⟩
  have e1 : PF.massAt halfAtom 0 = 1 / 2 := by simp [halfAtom, PF.massAt, Seg.massAt]
  have e2 : (PF.law halfAtom).real univ = 1 := by
    have hd := halfAtom_dens
    unfold halfAtom at hd ⊢
    rw [law_pair hd, const_mass _ _ (by norm_num) (by norm_num), Seg.law_real_dirac (by norm_num) MeasurableSet.univ]
    norm_num
  rw [e1, e2]; norm_num

end Conv
end Pacal
