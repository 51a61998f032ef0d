import Verif.TwoVars.PropLemmas

/-!
# Property C66: the distribution of a function of two dependent variables (`TwoVarsModel`)

`jointLaw op p` is the law of `op X Y` for variables with the joint density `p`; `Regular` says what is needed of the
operation and of sympy, `Joint` what is needed of the joint density (`TwoVars/Spec.lean`). `linear`, `product` and
`parallel` (`TwoVars/Sym.lean`) are the expressions for `α x + β y`, `x y` and `x y / (x + y)`.

Full property: for every operation that the class accepts and every joint distribution, the result is the law of the
operation. Proved with `Regular` and without atoms; violated by atoms, by products with a piece that starts at 0, and by an
operation with a pole.
-/

namespace Pacal
namespace TwoVars
open MeasureTheory Set Transform Conv

/-- **C66, limits of integration.** Where sympy finds the curve and its intersections with the sides of the box, the limits
enclose exactly the part of the curve that lies in the box. -/
theorem C66_limits {S : Sym} {a b c d : EReal} {z : ℝ} (h : Cuts S a b c d z) (hab : a < b) (hcd : c < d) :
    ∃ L U, getUL S a b c d z = .ok (L, U) ∧ ∀ x : ℝ, (min U L < x ∧ (x : EReal) < max U L) ↔
      ((a < x ∧ (x : EReal) < b) ∧ c < (S.along x z : EReal) ∧ (S.along x z : EReal) < d) := by
  obtain ⟨L, U, h1, -, -, h4⟩ := getUL_ok h hab hcd
  exact ⟨L, U, h1, h4⟩

/-- **C66, density.** The values computed at a point, with the pairs selected for it, are those of a density of the law;
no exception is raised (at almost every point). -/
theorem C66_density_partial {S : Sym} {op p : ℝ → ℝ → ℝ} {f g : PF ℝ} {P : Par} (hP : ExactQ P.q P.qp) {eps : ℝ}
    (hf : PF.WF eps f) (hfc : ∀ s ∈ f, s.isDirac = false) (hg : PF.WF eps g) (hgc : ∀ s ∈ g, s.isDirac = false)
    (hR : Regular S op f g) (hJ : Joint p f g) :
    ∃ k : ℝ → ℝ, jointLaw op p = (volume.withDensity fun z => ENNReal.ofReal (k z)) ∧ (∀ᵐ z, 0 ≤ k z) ∧
      ∀ᵐ z, ∀ i, convmodelx S P p (findSegList S f g z) [z] i = .ok [k z] := by
  obtain ⟨k1, -, k3, heq, hz⟩ := facts (P := P) hP hf hfc hg hgc hR hJ
  refine ⟨total S p f g, k3, k1, ?_⟩
  filter_upwards [heq, hz] with z h1 h2 i
  obtain ⟨i', e⟩ := loop_total (y := z) hfc hgc h1 h2 (fun _ _ _ _ => Iff.rfl) i
  simp [convmodelx, e, Except.bind]

/-- **C66, law.** The distribution returned is the law of the operation. -/
theorem C66_law_partial {S : Sym} {op p : ℝ → ℝ → ℝ} {f g : PF ℝ} {P : Par} (hP : ExactQ P.q P.qp) (he : 0 ≤ P.eps)
    (pole : ℝ → ℝ → Pole) {eps : ℝ} (hf : PF.WF eps f) (hfc : ∀ s ∈ f, s.isDirac = false) (hg : PF.WF eps g)
    (hgc : ∀ s ∈ g, s.isDirac = false) (hR : Regular S op f g) (hJ : Joint p f g) :
    ∃ r, convmodel S P pole p f g = some r ∧ PF.WF P.eps r ∧ PF.Dens r ∧ PF.law r = jointLaw op p := by
  obtain ⟨r, r1, r2, r3, r4, -⟩ := model_law hP he pole hf hfc hg hgc hR hJ
  exact ⟨r, r1, r2, r3, r4⟩

/-- **C66, linear combinations** of two dependent variables: any pieces, finite or not. -/
theorem C66_linear_partial {α β : ℝ} (ha : α ≠ 0) (hb : β ≠ 0) {p : ℝ → ℝ → ℝ} {f g : PF ℝ} {P : Par} (hP : ExactQ P.q P.qp)
    (he : 0 ≤ P.eps) (pole : ℝ → ℝ → Pole) {eps : ℝ} (hf : PF.WF eps f) (hfc : ∀ s ∈ f, s.isDirac = false) (hg : PF.WF eps g)
    (hgc : ∀ s ∈ g, s.isDirac = false) (hJ : Joint p f g) :
    ∃ r, convmodel (linear α β) P pole p f g = some r ∧ PF.WF P.eps r ∧ PF.Dens r ∧
      PF.law r = jointLaw (fun x y => α * x + β * y) p :=
  C66_law_partial hP he pole hf hfc hg hgc (linear_regular ha hb hf hfc hg hgc) hJ

/-- **C66, products** of two dependent variables whose supports lie right of 0. -/
theorem C66_product_partial {p : ℝ → ℝ → ℝ} {f g : PF ℝ} {P : Par} (hP : ExactQ P.q P.qp) (he : 0 ≤ P.eps)
    (pole : ℝ → ℝ → Pole) {eps : ℝ} (hf : PF.WF eps f) (hfc : ∀ s ∈ f, s.isDirac = false) (hfp : Positive f)
    (hg : PF.WF eps g) (hgc : ∀ s ∈ g, s.isDirac = false) (hgp : Positive g) (hJ : Joint p f g) :
    ∃ r, convmodel product P pole p f g = some r ∧ PF.WF P.eps r ∧ PF.Dens r ∧ PF.law r = jointLaw (fun x y => x * y) p :=
  C66_law_partial hP he pole hf hfc hg hgc (product_regular hf hfc hfp hg hgc hgp) hJ

/-- **C66, independent variables**: with the product of the two densities as joint density, the result is the law of the
operation on independent variables, the same as that of the arithmetic on independent variables (C12). -/
theorem C66_independent_partial {α β : ℝ} (ha : α ≠ 0) (hb : β ≠ 0) {f g : PF ℝ} {P : Par} (hP : ExactQ P.q P.qp)
    (he : 0 ≤ P.eps) (pole : ℝ → ℝ → Pole) {eps : ℝ} (hf : PF.WF eps f) (hfc : ∀ s ∈ f, s.isDirac = false) (hg : PF.WF eps g)
    (hgc : ∀ s ∈ g, s.isDirac = false) (hfd : PF.Dens f) (hgd : PF.Dens g) (hf0 : ∀ x, 0 ≤ f.val x) (hg0 : ∀ x, 0 ≤ g.val x)
    (hfm : Measurable f.val) (hgm : Measurable g.val) :
    ∃ r, convmodel (linear α β) P pole (fun x y => f.val x * g.val y) f g = some r ∧
      PF.law r = opLaw (fun x y => α * x + β * y) (PF.law f) (PF.law g) := by
  obtain ⟨r, r1, -, -, r4⟩ := C66_linear_partial ha hb hP he pole hf hfc hg hgc (joint_indep hfd hgd hf0 hg0 hfm hgm)
  exact ⟨r, r1, by rw [r4, jointLaw_indep hfd hgd hf0 hfc hgc]⟩

/-! ### violations -/

/-- **C66 violated by atoms.** When the first pair of pieces contains an atom, `UnboundLocalError` is raised (adding the
constant 1 to a uniform variable); after a pair without atoms, the integral of that pair is counted a second time. -/
theorem C66_violated_atoms (P : Par) (p : ℝ → ℝ → ℝ) :
    convmodelx (linear 1 1) P p (findSegList (linear 1 1) [.dirac 1 1] [.const 0 1 1] (3 / 2)) [3 / 2] none = .error .unbound ∧
    ∀ (S : Sym) (z v : ℝ) (si sj : Seg ℝ) (a m : ℝ), si.isDirac = false → sj.isDirac = false → pairInt S P p z si sj = .ok v →
      convmodelx S P p [(si, sj), (.dirac a m, sj)] [z] none = .ok [v + v] := by
  constructor
  · have hsel : selected (linear 1 1) (3 / 2) (.dirac 1 1) (.const 0 1 1) := by
      have hl : ∀ x y : ℝ, (linear 1 1).lop x y = some ((x + y : ℝ) : EReal) := by
        intro x y
        unfold linear
        simp only
        rw [if_neg]
        · rw [aff_coe, aff_coe, ← EReal.coe_add]; simp
        · rw [aff_coe, aff_coe]
          exact fun h => h.elim (fun h => EReal.coe_ne_top _ h.1) (fun h => EReal.coe_ne_bot _ h.1)
      refine ⟨⟨_, mem_corners.2 ⟨_, _, .inl rfl, .inl rfl, hl 1 0⟩, ?_⟩, _, mem_corners.2 ⟨_, _, .inl rfl, .inr rfl, hl 1 1⟩, ?_⟩
      · exact EReal.coe_lt_coe_iff.2 (by norm_num)
      · exact EReal.coe_lt_coe_iff.2 (by norm_num)
    have e : findSegList (linear 1 1) [.dirac 1 1] [.const 0 1 1] (3 / 2) = [(.dirac 1 1, .const 0 1 1)] := by
      simp [findSegList, pairsBy, hsel]
    rw [e]
    simp [convmodelx, pairLoop.eq_def, Seg.isDirac, Except.bind]
  · intro S z v si sj a m h1 h2 h3
    have hd : (Seg.dirac a m).isDirac = true := rfl
    simp [convmodelx, pairLoop.eq_def, Except.bind, h1, h2, h3, hd]

/-- **C66 violated for products with a piece that starts at 0**: for `X` uniform on `[0, 1]` and `Y` on `[1, 2]` the code
compares with `None` (`TypeError`); for `X` on `[1, 2]` and `Y` on `[0, 1]` the equation `z / x = 0` has no first solution
(`IndexError`). -/
theorem C66_violated_zero (P : Par) (p : ℝ → ℝ → ℝ) (z : ℝ) :
    pairInt product P p z (.const 0 1 1) (.const 1 2 1) = .error .typ ∧
    pairInt product P p z (.const 1 2 1) (.const 0 1 1) = .error .index := by
  have e0 : ∀ b v : ℝ, Conv.lo (Seg.const 0 b v) = 0 := fun _ _ => rfl
  have e1 : ∀ b v : ℝ, Conv.lo (Seg.const 1 b v) = 1 := fun _ _ => rfl
  have e2 : ∀ v : ℝ, Conv.hi (Seg.const 1 2 v) = ((2 : ℝ) : EReal) := fun _ => rfl
  have h2 : ((2 : ℝ) : EReal) ≠ 0 := EReal.coe_ne_zero.2 two_ne_zero
  constructor
  · simp only [pairInt, getUL, product, e0, e1, e2, if_neg h2, if_neg (one_ne_zero (α := EReal)), if_true, inside, Bind.bind, Except.bind]
  · simp only [pairInt, getUL, product, e0, if_true, Bind.bind, Except.bind]

/-- two resistors: `X` uniform on `[1, 2]` -/
noncomputable def resX : PF ℝ := [.const 1 2 1]
/-- and `Y` uniform on `[1/10, 2]`, in two pieces -/
noncomputable def resY : PF ℝ := [.const (1 / 10) (4 / 5) (10 / 19), .const (4 / 5) 2 (10 / 19)]
/-- independent -/
noncomputable def resP (x y : ℝ) : ℝ := open Classical in if (1 < x ∧ x < 2) ∧ 1 / 10 < y ∧ y < 2 then 10 / 19 else 0

theorem res_along {x : ℝ} (h : 1 < x ∧ x < 2) : 2 / 3 < parallel.along x (1 / 2) ∧ parallel.along x (1 / 2) < 1 := by
  have h1 : 0 < x - 1 / 2 := by linarith [h.1]
  constructor
  · show 2 / 3 < x * (1 / 2) / (x - 1 / 2)
    rw [lt_div_iff₀ h1]; linarith [h.2]
  · show x * (1 / 2) / (x - 1 / 2) < 1
    rw [div_lt_iff₀ h1]; linarith [h.1]

theorem res_selected : ∀ sj ∈ resY, selected parallel (1 / 2) (.const 1 2 1) sj := by
  have hl : ∀ x y : ℝ, 0 < x → 0 < y → parallel.lop x y = some ((x * y / (x + y) : ℝ) : EReal) := by
    intro x y hx hy
    show (if _ then none else _) = _
    rw [if_neg]
    · simp
    · simp only [EReal.toReal_coe]; linarith
  intro sj hsj
  simp only [resY, List.mem_cons, List.not_mem_nil, or_false] at hsj
  rcases hsj with rfl | rfl
  · refine ⟨⟨_, mem_corners.2 ⟨_, _, .inl rfl, .inl rfl, hl 1 (1 / 10) (by norm_num) (by norm_num)⟩, ?_⟩, _,
      mem_corners.2 ⟨_, _, .inr rfl, .inr rfl, hl 2 (4 / 5) (by norm_num) (by norm_num)⟩, ?_⟩ <;>
    exact EReal.coe_lt_coe_iff.2 (by norm_num)
  · refine ⟨⟨_, mem_corners.2 ⟨_, _, .inl rfl, .inl rfl, hl 1 (4 / 5) (by norm_num) (by norm_num)⟩, ?_⟩, _,
      mem_corners.2 ⟨_, _, .inr rfl, .inr rfl, hl 2 2 (by norm_num) (by norm_num)⟩, ?_⟩ <;>
    exact EReal.coe_lt_coe_iff.2 (by norm_num)

/-- **C66 violated by an operation with a pole**: for two resistors in parallel, `x y / (x + y)`, one between 1 and 2, the
other between 1/10 and 2 in two pieces divided at 4/5, the density at 1/2 comes out too large: sympy's intersection of the
curve with the line `y = 1/10` lies on the other branch of the hyperbola, so the first pair is integrated over all of
`(1, 2)` instead of `(4/3, 2)`, and `(1, 4/3)` is counted again for the second pair. -/
theorem C66_violated_pole {P : Par} (hP : ExactQ P.q P.qp) :
    (∀ x, 1 < x ∧ x < 2 → (parallel.along x (1 / 2) < 4 / 5 ↔ 4 / 3 < x)) ∧
    getUL parallel (1 : ℝ) (2 : ℝ) (1 / 10 : ℝ) (4 / 5 : ℝ) (1 / 2) = .ok (((1 : ℝ) : EReal), ((2 : ℝ) : EReal)) ∧
    ∃ v, convmodelx parallel P resP (findSegList parallel resX resY (1 / 2)) [1 / 2] none = .ok [v] ∧
      (∫ x in {x | (1 < x ∧ x < 2) ∧ 1 / 10 < parallel.along x (1 / 2) ∧ parallel.along x (1 / 2) < 2},
        resP x (parallel.along x (1 / 2)) * |parallel.jac x (1 / 2)|) < v := by
  have g1 : getUL parallel (1 : ℝ) (2 : ℝ) (1 / 10 : ℝ) (4 / 5 : ℝ) (1 / 2) = .ok (((1 : ℝ) : EReal), ((2 : ℝ) : EReal)) := by
    rw [getUL_parallel (A := -1 / 8) (B := 4 / 3) (C := 1) (D := 2 / 3) (by norm_num) (by norm_num) (by norm_num) (by norm_num)
      (by norm_num) (by norm_num) (by norm_num) (by norm_num)]
    norm_num
  have g2 : getUL parallel (1 : ℝ) (2 : ℝ) (4 / 5 : ℝ) (2 : ℝ) (1 / 2) = .ok (((1 : ℝ) : EReal), ((4 / 3 : ℝ) : EReal)) := by
    rw [getUL_parallel (A := 4 / 3) (B := 2 / 3) (C := 1) (D := 2 / 3) (by norm_num) (by norm_num) (by norm_num) (by norm_num)
      (by norm_num) (by norm_num) (by norm_num) (by norm_num)]
    norm_num
  have hval : ∀ x ∈ Ioo (1 : ℝ) 2, integrand parallel resP (1 / 2) x = 10 / 19 * (x ^ 2 / (x - 1 / 2) ^ 2) := by
    intro x hx
    obtain ⟨h1, h2⟩ := res_along hx
    rw [integrand, resP, if_pos ⟨hx, by linarith, by linarith⟩]
    congr 1
    exact abs_of_nonneg (div_nonneg (sq_nonneg _) (sq_nonneg _))
  have hcont : ContinuousOn (fun x : ℝ => 10 / 19 * (x ^ 2 / (x - 1 / 2) ^ 2)) (Icc 1 2) := by
    refine ContinuousOn.mul continuousOn_const (ContinuousOn.div (by fun_prop) (by fun_prop) fun x hx => ?_)
    have : 0 < x - 1 / 2 := by linarith [hx.1]
    positivity
  have hint : IntegrableOn (integrand parallel resP (1 / 2)) (Ioo 1 2) := by
    refine IntegrableOn.congr_fun ?_ (fun x hx => (hval x hx).symm) measurableSet_Ioo
    exact (hcont.integrableOn_compact isCompact_Icc).mono_set Ioo_subset_Icc_self
  have hset : ∀ a b : ℝ, {t : ℝ | ((a : ℝ) : EReal) < t ∧ (t : EReal) < ((b : ℝ) : EReal)} = Ioo a b := by
    intro a b; ext t; simp
  have p1 : pairInt parallel P resP (1 / 2) (.const 1 2 1) (.const (1 / 10) (4 / 5) (10 / 19)) =
      .ok (∫ x in Ioo 1 2, integrand parallel resP (1 / 2) x) := by
    have hg : getUL parallel (Conv.lo (.const 1 2 1)) (Conv.hi (.const 1 2 1)) (Conv.lo (.const (1 / 10) (4 / 5) (10 / 19)))
      (Conv.hi (.const (1 / 10) (4 / 5) (10 / 19))) (1 / 2) = _ := g1
    unfold pairInt
    simp only [hg, Bind.bind, Except.bind]
    have h12 : ((1 : ℝ) : EReal) < ((2 : ℝ) : EReal) := EReal.coe_lt_coe_iff.2 (by norm_num)
    rw [min_eq_right h12.le, max_eq_left h12.le, if_pos h12, segint_set hP (by simp) (.inl (EReal.coe_ne_bot _)), hset]
    rw [hset]; exact hint
  have p2 : pairInt parallel P resP (1 / 2) (.const 1 2 1) (.const (4 / 5) 2 (10 / 19)) =
      .ok (∫ x in Ioo 1 (4 / 3), integrand parallel resP (1 / 2) x) := by
    have hg : getUL parallel (Conv.lo (.const 1 2 1)) (Conv.hi (.const 1 2 1)) (Conv.lo (.const (4 / 5) 2 (10 / 19)))
      (Conv.hi (.const (4 / 5) 2 (10 / 19))) (1 / 2) = _ := g2
    unfold pairInt
    simp only [hg, Bind.bind, Except.bind]
    have h12 : ((1 : ℝ) : EReal) < ((4 / 3 : ℝ) : EReal) := EReal.coe_lt_coe_iff.2 (by norm_num)
    rw [min_eq_right h12.le, max_eq_left h12.le, if_pos h12, segint_set hP (by simp) (.inl (EReal.coe_ne_bot _)), hset]
    rw [hset]; exact hint.mono_set (Ioo_subset_Ioo le_rfl (by norm_num))
  refine ⟨?_, g1, ?_⟩
  · intro x hx
    have h1 : 0 < x - 1 / 2 := by linarith [hx.1]
    show x * (1 / 2) / (x - 1 / 2) < 4 / 5 ↔ _
    rw [div_lt_iff₀ h1]
    constructor <;> intro h <;> linarith
  · refine ⟨(∫ x in Ioo 1 2, integrand parallel resP (1 / 2) x) + ∫ x in Ioo 1 (4 / 3), integrand parallel resP (1 / 2) x, ?_, ?_⟩
    · have s1 := res_selected (.const (1 / 10) (4 / 5) (10 / 19)) (by simp [resY])
      have s2 := res_selected (.const (4 / 5) 2 (10 / 19)) (by simp [resY])
      have e : findSegList parallel resX resY (1 / 2) =
          [(.const 1 2 1, .const (1 / 10) (4 / 5) (10 / 19)), (.const 1 2 1, .const (4 / 5) 2 (10 / 19))] := by
        simp only [findSegList, resX, resY, pairsBy, List.flatMap_cons, List.flatMap_nil, List.filter_cons, s1, s2, decide_true,
          if_true, List.filter_nil, List.map_cons, List.map_nil, List.append_nil]
      rw [e]
      have hc : ∀ a b v : ℝ, (Seg.const a b v).isDirac = false := fun _ _ _ => rfl
      simp only [convmodelx, pairLoop.eq_def, hc, and_self, if_true, p1, p2, Except.bind, zero_add]
    · have hD : {x | (1 < x ∧ x < 2) ∧ 1 / 10 < parallel.along x (1 / 2) ∧ parallel.along x (1 / 2) < 2} = Ioo 1 2 := by
        ext x
        constructor
        · exact fun h => h.1
        · intro h
          obtain ⟨h1, h2⟩ := res_along h
          exact ⟨h, by linarith, by linarith⟩
      rw [hD]
      have hpos : 0 < ∫ x in Ioo (1 : ℝ) (4 / 3), integrand parallel resP (1 / 2) x := by
        refine (setIntegral_pos_iff_support_of_nonneg_ae ?_ (hint.mono_set (Ioo_subset_Ioo le_rfl (by norm_num)))).2 ?_
        · exact .of_forall fun x => mul_nonneg (by unfold resP; split_ifs <;> norm_num) (abs_nonneg _)
        · have hsub : Ioo (1 : ℝ) (4 / 3) ⊆ Function.support (integrand parallel resP (1 / 2)) ∩ Ioo 1 (4 / 3) := by
            intro x hx
            refine ⟨?_, hx⟩
            rw [Function.mem_support, hval x ⟨hx.1, by linarith [hx.2]⟩]
            have : 0 < x - 1 / 2 := by linarith [hx.1]
            have : 0 < x := by linarith [hx.1]
            positivity
          refine lt_of_lt_of_le ?_ (measure_mono hsub)
          rw [Real.volume_Ioo]
          norm_num
      exact lt_add_of_pos_right _ hpos

/-! ### non-vacuity -/

/-- `2 X - Y` for independent variables, uniform on `[0, 1]` and on the two pieces of `[1/10, 2]` -/
example : ∃ r, convmodel (linear 2 (-1)) exPar (fun _ _ => .none) resP resX resY = some r ∧
    PF.law r = jointLaw (fun x y => 2 * x + -1 * y) resP := by
  have hb : MeasurableSet {w : ℝ × ℝ | (1 < w.1 ∧ w.1 < 2) ∧ 1 / 10 < w.2 ∧ w.2 < 2} := by
    refine MeasurableSet.inter (MeasurableSet.inter ?_ ?_) (MeasurableSet.inter ?_ ?_)
    · exact measurableSet_lt measurable_const measurable_fst
    · exact measurableSet_lt measurable_fst measurable_const
    · exact measurableSet_lt measurable_const measurable_snd
    · exact measurableSet_lt measurable_snd measurable_const
  have e : (fun w : ℝ × ℝ => resP w.1 w.2) = {w : ℝ × ℝ | (1 < w.1 ∧ w.1 < 2) ∧ 1 / 10 < w.2 ∧ w.2 < 2}.indicator fun _ => 10 / 19 := by
    funext w
    simp only [resP, indicator, mem_ofPred_eq]
  have hJ : Joint resP resX resY := by
    refine ⟨fun x y => by unfold resP; split_ifs <;> norm_num, by rw [e]; exact measurable_const.indicator hb, ?_, ?_⟩
    · rw [e, integrable_indicator_iff hb, integrableOn_const_iff]
      right
      have hsub : {w : ℝ × ℝ | (1 < w.1 ∧ w.1 < 2) ∧ 1 / 10 < w.2 ∧ w.2 < 2} ⊆ Icc 1 2 ×ˢ Icc (1 / 10) 2 :=
        fun w hw => ⟨⟨hw.1.1.le, hw.1.2.le⟩, hw.2.1.le, hw.2.2.le⟩
      exact (measure_mono hsub).trans_lt (isCompact_Icc.prod isCompact_Icc).measure_lt_top
    · have hne : ∀ᵐ w : ℝ × ℝ, w.2 ≠ 4 / 5 := by
        rw [Measure.volume_eq_prod]
        refine Measure.quasiMeasurePreserving_snd.ae (p := fun y => y ≠ 4 / 5) ?_
        rw [ae_iff]; simp
      filter_upwards [hne] with w hw h
      have h' : (1 < w.1 ∧ w.1 < 2) ∧ 1 / 10 < w.2 ∧ w.2 < 2 := by
        by_contra hc; exact h (if_neg hc)
      refine ⟨⟨.const 1 2 1, by simp [resX], ?_⟩, ?_⟩
      · exact ⟨EReal.coe_lt_coe_iff.2 h'.1.1, EReal.coe_lt_coe_iff.2 h'.1.2⟩
      · rcases lt_or_gt_of_ne hw with h1 | h1
        · exact ⟨.const (1 / 10) (4 / 5) (10 / 19), by simp [resY], EReal.coe_lt_coe_iff.2 h'.2.1, EReal.coe_lt_coe_iff.2 h1⟩
        · exact ⟨.const (4 / 5) 2 (10 / 19), by simp [resY], EReal.coe_lt_coe_iff.2 h1, EReal.coe_lt_coe_iff.2 h'.2.2⟩
  have hwx : PF.WF 0 resX := ⟨by simp [resX, Seg.WF], by simp [resX]⟩
  have hwy : PF.WF 0 resY := by
    refine ⟨?_, ?_⟩
    · intro s hs
      simp only [resY, List.mem_cons, List.not_mem_nil, or_false] at hs
      rcases hs with rfl | rfl <;> norm_num [Seg.WF]
    · simp only [resY, List.pairwise_cons, List.mem_singleton, forall_eq, List.not_mem_nil, false_imp_iff, implies_true,
        List.Pairwise.nil, and_true]
      exact ⟨le_rfl, by intro a m a' m' h; cases h⟩
  obtain ⟨r, r1, -, -, r4⟩ := C66_linear_partial (α := 2) (β := -1) (by norm_num) (by norm_num) (P := exPar) exPar_exact
    (by norm_num [exPar]) (fun _ _ => .none) hwx (by simp [resX, Seg.isDirac]) hwy (by simp [resY, Seg.isDirac]) hJ
  exact ⟨r, r1, r4⟩

end TwoVars
end Pacal
