import Verif.Summary.LemMgf
import Verif.Conv.PropsSum
import Verif.Push.PropsShift

/-!
# C93: the moment generating function

`d.mgf()(t)` is `E exp(tX)`: proved (with exact integrals, and if the expectation exists) for `t` between the ends of the range of
**X**.  Elsewhere it is 0, because `mgf()` is given the break points of the density of `X` as its own; it fails for a constant.
-/

namespace Pacal.Summary
open MeasureTheory ProbabilityTheory Transform Moments Standard Conv Set

/-- **C93, value at a point of the range of X.** -/
theorem C93_value_partial {eps : ℝ} (he : 0 ≤ eps) {q : Quad} {p : QPar} (hq : ExactQ q p) (hz : ZeroErr q) {l : PF ℝ}
    (hw : ∀ s ∈ l, s.WF) (hd : PF.Dens l) (h2 : 2 ≤ (PF.getBreaks l).length) (hend : ∀ a, PF.getBreaks l ≠ [a, .pinf]) {t : ℝ}
    (ht : InRange l t) (hi : Integrable (fun x => Real.exp (t * x)) (PF.law l)) :
    mgfAt eps q p l t = .ok (some (mgf id (PF.law l) t)) := by
  obtain ⟨m, h1, h3⟩ := mgfPieces_find he hw h2 hend
  obtain ⟨s, h4⟩ := (h3 t).1 ht
  obtain ⟨r, h5, -, h6⟩ := C55_meanf hq hw hd hi
  simp only [mgfAt, h1, h4]
  rw [mgfFun, h5, h6 hz]
  rfl

/-- **C93, the function itself.** `_mgf_fun`, which `mgf()` wraps, is right at every `t`, also outside the range of `X` and for a
constant. -/
theorem C93_fun {q : Quad} {p : QPar} (hq : ExactQ q p) (hz : ZeroErr q) {l : PF ℝ} (hw : ∀ s ∈ l, s.WF) (hd : PF.Dens l) {t : ℝ}
    (hi : Integrable (fun x => Real.exp (t * x)) (PF.law l)) : mgfFun q p l t = .ok (some (mgf id (PF.law l) t)) := by
  obtain ⟨r, h5, -, h6⟩ := C55_meanf hq hw hd hi
  rw [mgfFun, h5, h6 hz]
  rfl

/-- **C93, arrays.** On a list of points the value is the list of the values. -/
theorem C93_array {q : Quad} {p : QPar} (hq : ExactQ q p) (hz : ZeroErr q) {l : PF ℝ} (hw : ∀ s ∈ l, s.WF) (hd : PF.Dens l)
    (ts : List ℝ) (hi : ∀ t ∈ ts, Integrable (fun x => Real.exp (t * x)) (PF.law l)) :
    mgfFuns q p l ts = .ok (ts.map fun t => some (mgf id (PF.law l) t)) := by
  unfold mgfFuns
  induction ts with
  | nil => rfl
  | cons t ts ih =>
    rw [List.mapM_cons, C93_fun hq hz hw hd (hi t (by simp)), ih fun u hu => hi u (by simp [hu])]
    rfl

/-- **C93, at 0** the moment generating function is the total probability. -/
theorem C93_zero {q : Quad} {p : QPar} (hq : ExactQ q p) (hz : ZeroErr q) {l : PF ℝ} (hw : ∀ s ∈ l, s.WF) (hd : PF.Dens l) :
    mgfFun q p l 0 = .ok (some ((PF.law l).real univ)) := by
  have := PF.law_finite hd
  rw [C93_fun hq hz hw hd (by simp), mgf_zero']

/-- **C93, sums.** The moment generating function of the computed sum of independent variables is the product of the two. -/
theorem C93_sum_partial {P : Par} {f g : PF ℝ} (h : SumArgs P f g) (hP : ExactQ P.q P.qp) (hz : ZeroErr P.q) (hf : PF.Dens f)
    (hg : PF.Dens g) (pole : ℝ → ℝ → Pole) {t : ℝ} (hif : Integrable (fun x => Real.exp (t * x)) (PF.law f))
    (hig : Integrable (fun x => Real.exp (t * x)) (PF.law g)) :
    ∃ r, conv P pole f g = some r ∧ ∃ u v, mgfFun P.q P.qp f t = .ok (some u) ∧ mgfFun P.q P.qp g t = .ok (some v) ∧
      mgfFun P.q P.qp r t = .ok (some (u * v)) := by
  obtain ⟨r, r1, r2, r3, r4⟩ := C12_law_partial h hP hf hg pole
  have := PF.law_finite hf
  have := PF.law_finite hg
  have hm : Measurable fun p : ℝ × ℝ => p.1 + p.2 := by fun_prop
  have e : ∀ p : ℝ × ℝ, Real.exp (t * (p.1 + p.2)) = Real.exp (t * p.1) * Real.exp (t * p.2) := fun p => by
    rw [mul_add, Real.exp_add]
  have hir : Integrable (fun x => Real.exp (t * x)) (PF.law r) := by
    rw [r4, opLaw, integrable_map_measure (by fun_prop) hm.aemeasurable]
    simp only [Function.comp_def, e]
    exact hif.mul_prod hig
  refine ⟨r, r1, _, _, C93_fun hP hz h.fwf.seg hf hif, C93_fun hP hz h.gwf.seg hg hig, ?_⟩
  rw [C93_fun hP hz r2.seg r3 hir]
  congr 2
  rw [r4, opLaw]
  show ∫ x, Real.exp (t * x) ∂_ = _
  rw [integral_map hm.aemeasurable (by fun_prop)]
  simp only [e]
  exact integral_prod_mul (fun x => Real.exp (t * x)) fun y => Real.exp (t * y)

/-- **C93, linear functions.** The moment generating function of the computed `scale * X + shift` at `t` is `exp(t * shift)` times
that of `X` at `t * scale`. -/
theorem C93_linear_partial {eps : ℝ} (he : 0 ≤ eps) {q : Quad} {p : QPar} (hq : ExactQ q p) (hz : ZeroErr q) {l : PF ℝ} {scale : ℝ}
    (hs : scale ≠ 0) (shift : ℝ) (hl : PF.WF (eps / |scale|) l) (hd : PF.Dens l) {t : ℝ}
    (hi : Integrable (fun x => Real.exp (t * scale * x)) (PF.law l)) :
    ∃ r, shiftedScaled eps l shift scale = some r ∧ ∃ u, mgfFun q p l (t * scale) = .ok (some u) ∧
      mgfFun q p r t = .ok (some (Real.exp (t * shift) * u)) := by
  obtain ⟨r, r1, r2, r3, r4⟩ := C18_law_partial he hs shift hl hd
  have hm : Measurable fun x : ℝ => x * scale + shift := by fun_prop
  have e : ∀ x : ℝ, Real.exp (t * (x * scale + shift)) = Real.exp (t * shift) * Real.exp (t * scale * x) := fun x => by
    rw [← Real.exp_add]; congr 1; ring
  have hir : Integrable (fun x => Real.exp (t * x)) (PF.law r) := by
    rw [r4, integrable_map_measure (by fun_prop) hm.aemeasurable]
    simp only [Function.comp_def, e]
    exact hi.const_mul _
  refine ⟨r, r1, _, C93_fun hq hz hl.seg hd hi, ?_⟩
  rw [C93_fun hq hz r2.seg r3 hir, r4]
  congr 2
  show ∫ x, Real.exp (t * x) ∂_ = _
  rw [integral_map hm.aemeasurable (by fun_prop)]
  simp only [e]
  exact integral_const_mul _ _

/-- **C93, outside the range of X** the value is 0, whatever the distribution. -/
theorem C93_finding_zero {eps : ℝ} (he : 0 ≤ eps) (q : Quad) (p : QPar) {l : PF ℝ} (hw : ∀ s ∈ l, s.WF)
    (h2 : 2 ≤ (PF.getBreaks l).length) (hend : ∀ a, PF.getBreaks l ≠ [a, .pinf]) {t : ℝ} (ht : ¬ InRange l t) :
    mgfAt eps q p l t = .ok (some 0) := by
  obtain ⟨m, h1, h3⟩ := mgfPieces_find he hw h2 hend
  simp only [mgfAt, h1, (h3 t).2 ht]

/-- **C93 violated outside the range of X**: for the fair mixture of 0 and the uniform distribution on `[0, 1]`, `mgf()(2)` is 0
and `E exp(2X)` is `1/2 + (e² - 1)/4`.  The function of `t` gets the break points of the density, a function of `x`. -/
theorem C93_violated_outside : (PF.law halfAtom) univ = 1 ∧ mgfAt exPar.eps exPar.q exPar.qp halfAtom 2 = .ok (some 0) ∧
    mgf id (PF.law halfAtom) 2 = 1 / 2 + (Real.exp 2 - 1) / 4 := by
  refine ⟨Cond.halfAtom_prob, C93_finding_zero (by norm_num [exPar]) _ _ halfAtom_args.fwf.seg (by rw [halfAtom_breaks]; rfl) ?_ ?_, ?_⟩
  · rw [halfAtom_breaks]
    intro a h
    cases h
  · rw [halfAtom_inRange]; norm_num
  · rw [halfAtom_mgf (by norm_num)]; norm_num

/-- **C93 violated by a constant**: `mgf()` of a constant `c` is an assertion error, since the density has one break point only. -/
theorem C93_violated_constant (eps : ℝ) (q : Quad) (p : QPar) (c t : ℝ) :
    mgfAt eps q p [.dirac c 1] t = .error .assertion ∧ mgf id (PF.law [.dirac c 1]) t = Real.exp (t * c) := by
  constructor
  · have : PF.getBreaks [Seg.dirac c 1] = [.fin c] := by
      refine Quantile.getBreaks_eq (by simp) fun x => ?_
      rw [mem_getBreaks]
      simp only [List.mem_singleton, exists_eq_left]
      show x = .fin c ∨ x = .fin c ↔ _
      tauto
    simp only [mgfAt, mgfPieces, this]
    rfl
  · have : PF.law [Seg.dirac c 1] = Measure.dirac c := by
      rw [PF.law_cons, PF.law_nil, add_zero, Seg.law]
      simp
    rw [this]
    show ∫ x, Real.exp (t * x) ∂_ = _
    rw [integral_dirac]

/-- inside the range the value is right: `E exp(X/2) = e^(1/2) - 1/2` for the same mixture -/
example : mgfAt exPar.eps exPar.q exPar.qp halfAtom (1 / 2) = .ok (some (Real.exp (1 / 2) - 1 / 2)) := by
  rw [C93_value_partial (by norm_num [exPar]) exPar_exact (fun _ _ _ => rfl) halfAtom_args.fwf.seg halfAtom_dens
    (by rw [halfAtom_breaks]; rfl) (by rw [halfAtom_breaks]; intro a h; cases h) (halfAtom_inRange.2 (by norm_num))
    (halfAtom_int _ (by fun_prop)).1, halfAtom_mgf (by norm_num)]
  congr 2
  ring

/-- `E exp(X + Y)` for two independent copies of it -/
example : ∃ r, conv exPar (fun _ _ => .none) halfAtom halfAtom = some r ∧
    mgfFun exPar.q exPar.qp r 1 = .ok (some ((Real.exp 1 / 2) * (Real.exp 1 / 2))) := by
  have hi := (halfAtom_int (fun x => Real.exp (1 * x)) (by fun_prop)).1
  obtain ⟨r, h1, u, v, h2, h3, h4⟩ := C93_sum_partial halfAtom_args exPar_exact (fun _ _ _ => rfl) halfAtom_dens halfAtom_dens
    (fun _ _ => .none) hi hi
  rw [C93_fun exPar_exact (fun _ _ _ => rfl) halfAtom_args.fwf.seg halfAtom_dens hi, halfAtom_mgf one_ne_zero] at h2 h3
  cases h2
  cases h3
  refine ⟨r, h1, ?_⟩
  rw [h4]
  congr 2
  ring

end Pacal.Summary
