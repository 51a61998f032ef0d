import Verif.Moments.Lemmas
import Verif.Push.PropsShift
import Verif.Conv.PropsSum
import Mathlib.Probability.Moments.Variance

/-!
# Property C55 (moments are expectations)

`PF.law l` is the measure of the density `l` including its atoms (`Law/Spec.lean`); `∫ x, g x ∂PF.law l` is the expectation of
`g X` and `Var[X; μ]` is Mathlib's variance.  The quadrature is exact (`ExactQ`).  The methods return NaN (or an infinite
variance) if the error estimates of the quadrature are large; where a theorem excludes this it assumes `ZeroErr`, i.e. that
the error estimates of the exact quadrature are 0.
-/

namespace Pacal
namespace Moments
open MeasureTheory Set Transform Conv ProbabilityTheory

/-- **C55, mean.** No error is raised; the result is the expectation or NaN, and the expectation if the error estimates
are 0. -/
theorem C55_mean {q : Quad} {p : QPar} (hq : ExactQ q p) {l : PF ℝ} (hw : ∀ s ∈ l, s.WF) (hd : PF.Dens l)
    (hi : Integrable (fun x => x) (PF.law l)) :
    ∃ r, mean q p l = .ok r ∧ (r = none ∨ r = some (∫ x, x ∂PF.law l)) ∧ (ZeroErr q → r = some (∫ x, x ∂PF.law l)) := by
  obtain ⟨st, h1, h2, -, h3⟩ := loop_spec hq (st := ⟨0, 0, 0, 0⟩) hw hd hi
  refine ⟨_, by rw [mean, h1]; rfl, ?_, fun hz => ?_⟩
  · dsimp only
    split_ifs
    · exact .inl rfl
    · exact .inr (by rw [h2, zero_add])
  · dsimp only
    rw [if_neg (by rw [(h3 hz).1]; norm_num), h2, zero_add]

/-- **C55, mean of a function.** -/
theorem C55_meanf {q : Quad} {p : QPar} (hq : ExactQ q p) {l : PF ℝ} (hw : ∀ s ∈ l, s.WF) (hd : PF.Dens l) {g : ℝ → ℝ}
    (hi : Integrable g (PF.law l)) :
    ∃ r, meanf q p g l = .ok r ∧ (r = none ∨ r = some (∫ x, g x ∂PF.law l)) ∧ (ZeroErr q → r = some (∫ x, g x ∂PF.law l)) := by
  obtain ⟨st, h1, h2, -, h3⟩ := loop_spec hq (st := ⟨0, 0, 0, 0⟩) hw hd hi
  refine ⟨_, by rw [meanf, h1]; rfl, ?_, fun hz => ?_⟩
  · dsimp only
    split_ifs
    · exact .inl rfl
    · exact .inr (by rw [h2, zero_add])
  · dsimp only
    rw [if_neg (by rw [(h3 hz).2]; norm_num), h2, zero_add]

/-- **C55, moment about a given point.** -/
theorem C55_moment {q : Quad} {p : QPar} (hq : ExactQ q p) {l : PF ℝ} (hw : ∀ s ∈ l, s.WF) (hd : PF.Dens l) (k : ℕ) (c : ℝ)
    (hi : Integrable (fun x => (x - c) ^ k) (PF.law l)) :
    ∃ r, moment q p l k (some c) = .ok r ∧ (r = none ∨ r = some (∫ x, (x - c) ^ k ∂PF.law l)) ∧
      (ZeroErr q → r = some (∫ x, (x - c) ^ k ∂PF.law l)) :=
  C55_meanf hq hw hd hi

/-- **C55, central moment.** If the mean is not NaN the default point is the expectation. -/
theorem C55_central_partial {q : Quad} {p : QPar} (hq : ExactQ q p) (hz : ZeroErr q) {l : PF ℝ} (hw : ∀ s ∈ l, s.WF) (hd : PF.Dens l)
    (k : ℕ) (h1 : Integrable (fun x => x) (PF.law l)) (hi : Integrable (fun x => (x - ∫ x, x ∂PF.law l) ^ k) (PF.law l)) :
    moment q p l k none = .ok (some (∫ x, (x - ∫ x, x ∂PF.law l) ^ k ∂PF.law l)) := by
  obtain ⟨r, e1, -, e2⟩ := C55_mean hq hw hd h1
  obtain ⟨r', e3, -, e4⟩ := C55_moment hq hw hd k (∫ x, x ∂PF.law l) hi
  rw [e2 hz] at e1
  rw [e4 hz] at e3
  rw [moment, e1]
  exact e3

/-- **C55, variance.** No error is raised; the result is the variance, or NaN (if the mean is NaN), or infinite (if the error
estimates are large); it is the variance if the error estimates are 0. -/
theorem C55_var {q : Quad} {p : QPar} (hq : ExactQ q p) {l : PF ℝ} (hw : ∀ s ∈ l, s.WF) (hd : PF.Dens l)
    (h2 : MemLp (fun x => x) 2 (PF.law l)) :
    ∃ r, var q p l = .ok r ∧ (r = none ∨ r = some ⊤ ∨ r = some ((Var[fun x => x; PF.law l] : ℝ) : EReal)) ∧
      (ZeroErr q → r = some ((Var[fun x => x; PF.law l] : ℝ) : EReal)) := by
  have hf := PF.law_finite hd
  obtain ⟨r, e1, e2, e3⟩ := C55_mean hq hw hd (h2.integrable one_le_two)
  rcases e2 with rfl | rfl
  · exact ⟨none, by rw [var, e1]; rfl, .inl rfl, fun hz => nomatch e3 hz⟩
  obtain ⟨m, hm⟩ : ∃ m, m = ∫ x, x ∂PF.law l := ⟨_, rfl⟩
  rw [← hm] at e1
  have hi := sq_integrable h2 m
  rw [law_parts l] at hi
  obtain ⟨i1, i2⟩ := integrable_add_measure.1 hi
  obtain ⟨st, a1, a2, -, a3⟩ := loop_spec hq (st := ⟨0, 0, 0, 0⟩) (l := PF.segs l) (fun s hs => hw s (List.mem_filter.1 hs).1)
    (fun s hs => hd s (List.mem_filter.1 hs).1) i1
  obtain ⟨st', b1, b2, -, b3⟩ := loop_spec hq (st := st) (l := PF.diracs l) (fun s hs => hw s (List.mem_filter.1 hs).1)
    (fun s hs => hd s (List.mem_filter.1 hs).1) i2
  have hv : st'.I = Var[fun x => x; PF.law l] := by
    rw [variance_eq_integral aemeasurable_id', ← hm, b2, a2, zero_add]
    conv_rhs => rw [law_parts l]
    rw [integral_add_measure i1 i2]
  refine ⟨_, by rw [var, e1]; dsimp only [Except.bind]; rw [a1]; dsimp only [Except.bind]; rw [b1]; rfl, ?_, fun hz => ?_⟩
  · dsimp only
    split_ifs
    · exact .inr (.inl rfl)
    · exact .inr (.inr (by rw [hv]))
  · dsimp only
    rw [if_neg (by rw [(b3 hz).1, (a3 hz).1]; norm_num), hv]

/-- **C55, standard deviation.** -/
theorem C55_std {q : Quad} {p : QPar} (hq : ExactQ q p) (hz : ZeroErr q) {l : PF ℝ} (hw : ∀ s ∈ l, s.WF) (hd : PF.Dens l)
    (h2 : MemLp (fun x => x) 2 (PF.law l)) : std q p l = .ok (some ((Real.sqrt (Var[fun x => x; PF.law l]) : ℝ) : EReal)) := by
  obtain ⟨r, e1, -, e2⟩ := C55_var hq hw hd h2
  rw [e2 hz] at e1
  rw [std, e1]
  have h0 : ¬ ((Var[fun x => x; PF.law l] : ℝ) : EReal) < 0 := by
    rw [not_lt]; exact_mod_cast variance_nonneg _ _
  simp only [Except.map, Option.bind_some]
  rw [if_neg (EReal.coe_ne_top _), if_neg h0, EReal.toReal_coe]

theorem standardized_spec {q : Quad} {p : QPar} (hq : ExactQ q p) (hz : ZeroErr q) {l : PF ℝ} (hw : ∀ s ∈ l, s.WF) (hd : PF.Dens l)
    (h2 : MemLp (fun x => x) 2 (PF.law l)) (hv : Var[fun x => x; PF.law l] ≠ 0) (k : ℕ) (e : ℝ)
    (hk : Integrable (fun x => (x - ∫ x, x ∂PF.law l) ^ k) (PF.law l)) :
    standardized q p l k e = .ok (some ((∫ x, (x - ∫ x, x ∂PF.law l) ^ k ∂PF.law l) / Var[fun x => x; PF.law l] ^ e)) := by
  have hf := PF.law_finite hd
  obtain ⟨r, e1, -, e2⟩ := C55_var hq hw hd h2
  obtain ⟨r', e3, -, e4⟩ := C55_mean hq hw hd (h2.integrable one_le_two)
  obtain ⟨r'', e5, -, e6⟩ := C55_moment hq hw hd k (∫ x, x ∂PF.law l) hk
  rw [e2 hz] at e1
  rw [e4 hz] at e3
  rw [e6 hz] at e5
  have h0 : ¬ ((Var[fun x => x; PF.law l] : ℝ) : EReal) < 0 := by
    rw [not_lt]; exact_mod_cast variance_nonneg _ _
  have h1 : ¬ (some ((Var[fun x => x; PF.law l] : ℝ) : EReal)) = some 0 := by
    rw [Option.some_inj, ← EReal.coe_zero, EReal.coe_eq_coe_iff]; exact hv
  rw [standardized, e1]
  dsimp only [Except.bind]
  rw [if_neg h1, e3]
  dsimp only [Except.bind]
  rw [e5]
  simp only [Except.map, ratio, Option.bind_some]
  rw [if_neg (EReal.coe_ne_top _), if_neg h0, EReal.toReal_coe]

/-- **C55, skewness.** -/
theorem C55_skewness {q : Quad} {p : QPar} (hq : ExactQ q p) (hz : ZeroErr q) {l : PF ℝ} (hw : ∀ s ∈ l, s.WF) (hd : PF.Dens l)
    (h2 : MemLp (fun x => x) 2 (PF.law l)) (hv : Var[fun x => x; PF.law l] ≠ 0)
    (hk : Integrable (fun x => (x - ∫ x, x ∂PF.law l) ^ 3) (PF.law l)) :
    skewness q p l = .ok (some ((∫ x, (x - ∫ x, x ∂PF.law l) ^ 3 ∂PF.law l) / Real.sqrt (Var[fun x => x; PF.law l]) ^ 3)) := by
  rw [skewness, standardized_spec hq hz hw hd h2 hv 3 _ hk, Real.sqrt_eq_rpow, ← Real.rpow_natCast,
    ← Real.rpow_mul (variance_nonneg _ _)]
  norm_num

/-- **C55, kurtosis.** -/
theorem C55_kurtosis {q : Quad} {p : QPar} (hq : ExactQ q p) (hz : ZeroErr q) {l : PF ℝ} (hw : ∀ s ∈ l, s.WF) (hd : PF.Dens l)
    (h2 : MemLp (fun x => x) 2 (PF.law l)) (hv : Var[fun x => x; PF.law l] ≠ 0)
    (hk : Integrable (fun x => (x - ∫ x, x ∂PF.law l) ^ 4) (PF.law l)) :
    kurtosis q p l = .ok (some ((∫ x, (x - ∫ x, x ∂PF.law l) ^ 4 ∂PF.law l) / Var[fun x => x; PF.law l] ^ 2)) := by
  rw [kurtosis, standardized_spec hq hz hw hd h2 hv 4 _ hk]
  norm_num

/-- skewness and kurtosis of a constant are NaN -/
theorem C55_degenerate {q : Quad} {p : QPar} (hq : ExactQ q p) (hz : ZeroErr q) {l : PF ℝ} (hw : ∀ s ∈ l, s.WF) (hd : PF.Dens l)
    (h2 : MemLp (fun x => x) 2 (PF.law l)) (hv : Var[fun x => x; PF.law l] = 0) :
    skewness q p l = .ok none ∧ kurtosis q p l = .ok none := by
  obtain ⟨r, e1, -, e2⟩ := C55_var hq hw hd h2
  rw [e2 hz, hv] at e1
  constructor
  · rw [skewness, standardized, e1]; dsimp only [Except.bind]; rw [if_pos (by rfl)]
  · rw [kurtosis, standardized, e1]; dsimp only [Except.bind]; rw [if_pos (by rfl)]

/-! ### mean and variance of `aX + b` and of `X + Y` -/

/-- **C55, linearity.** The distribution built for `scale * X + shift` has mean `scale * E X + shift` and variance
`scale² Var X`. -/
theorem C55_linear {q : Quad} {p : QPar} (hq : ExactQ q p) (hz : ZeroErr q) {eps : ℝ} (he : 0 ≤ eps) {l : PF ℝ} {scale : ℝ}
    (hs : scale ≠ 0) (shift : ℝ) (hl : PF.WF (eps / |scale|) l) (hd : PF.Dens l) (h1 : PF.law l univ = 1)
    (h2 : MemLp (fun x => x) 2 (PF.law l)) :
    ∃ r m v, shiftedScaled eps l shift scale = some r ∧ mean q p l = .ok (some m) ∧ var q p l = .ok (some ((v : ℝ) : EReal)) ∧
      mean q p r = .ok (some (scale * m + shift)) ∧ var q p r = .ok (some ((scale ^ 2 * v : ℝ) : EReal)) := by
  have hp : IsProbabilityMeasure (PF.law l) := ⟨h1⟩
  obtain ⟨r, r1, r2, r3, r4⟩ := C18_law_partial he hs shift hl hd
  have hm : Measurable fun x : ℝ => x * scale + shift := by fun_prop
  have hi := h2.integrable one_le_two
  have hL : MemLp (fun x => x) 2 (PF.law r) := by
    rw [r4, memLp_map_measure_iff (g := fun x : ℝ => x) (by fun_prop) hm.aemeasurable]
    exact (h2.mul_const scale).add (memLp_const shift)
  have hpr := PF.law_finite r3
  obtain ⟨a, a1, -, a2⟩ := C55_mean hq hl.seg hd hi
  obtain ⟨b, b1, -, b2⟩ := C55_var hq hl.seg hd h2
  obtain ⟨c, c1, -, c2⟩ := C55_mean hq r2.seg r3 (hL.integrable one_le_two)
  obtain ⟨d, d1, -, d2⟩ := C55_var hq r2.seg r3 hL
  rw [a2 hz] at a1
  rw [b2 hz] at b1
  rw [c2 hz] at c1
  rw [d2 hz] at d1
  refine ⟨r, _, _, r1, a1, b1, ?_, ?_⟩
  · rw [c1, r4, integral_map (f := fun x : ℝ => x) hm.aemeasurable (by fun_prop), integral_add (hi.mul_const scale) (integrable_const shift),
      integral_mul_const, integral_const, probReal_univ, one_smul, mul_comm]
  · rw [d1, r4, variance_map aemeasurable_id' hm.aemeasurable]
    have e : ((fun x : ℝ => x) ∘ fun x : ℝ => x * scale + shift) = fun x => scale * x + shift := by
      funext x; show x * scale + shift = _; rw [mul_comm]
    rw [e, variance_add_const (by fun_prop), variance_const_mul]

/-- **C55, sums.** For independent `X` and `Y` the distribution built for `X + Y` has mean `E X + E Y` and variance
`Var X + Var Y`. -/
theorem C55_sum {P : Par} {f g : PF ℝ} (h : SumArgs P f g) (hP : ExactQ P.q P.qp) (hz : ZeroErr P.q) (hf : PF.Dens f) (hg : PF.Dens g)
    (pole : ℝ → ℝ → Pole) (f1 : PF.law f univ = 1) (g1 : PF.law g univ = 1) (f2 : MemLp (fun x => x) 2 (PF.law f))
    (g2 : MemLp (fun x => x) 2 (PF.law g)) :
    ∃ r mf mg vf vg, conv P pole f g = some r ∧ mean P.q P.qp f = .ok (some mf) ∧ mean P.q P.qp g = .ok (some mg) ∧
      var P.q P.qp f = .ok (some ((vf : ℝ) : EReal)) ∧ var P.q P.qp g = .ok (some ((vg : ℝ) : EReal)) ∧
      mean P.q P.qp r = .ok (some (mf + mg)) ∧ var P.q P.qp r = .ok (some ((vf + vg : ℝ) : EReal)) := by
  have hp : IsProbabilityMeasure (PF.law f) := ⟨f1⟩
  have hp' : IsProbabilityMeasure (PF.law g) := ⟨g1⟩
  obtain ⟨r, r1, r2, r3, r4⟩ := C12_law_partial h hP hf hg pole
  have hm : Measurable fun p : ℝ × ℝ => p.1 + p.2 := by fun_prop
  have hL2 : MemLp (fun p : ℝ × ℝ => p.1 + p.2) 2 ((PF.law f).prod (PF.law g)) :=
    (f2.comp_measurePreserving measurePreserving_fst).add (g2.comp_measurePreserving measurePreserving_snd)
  have hL : MemLp (fun x => x) 2 (PF.law r) := by
    rw [r4, opLaw, memLp_map_measure_iff (g := fun x : ℝ => x) (by fun_prop) hm.aemeasurable]
    exact hL2
  have hpr := PF.law_finite r3
  have i1 := f2.integrable one_le_two
  have i2 := g2.integrable one_le_two
  obtain ⟨a, a1, -, a2⟩ := C55_mean hP h.fwf.seg hf i1
  obtain ⟨a', a1', -, a2'⟩ := C55_mean hP h.gwf.seg hg i2
  obtain ⟨b, b1, -, b2⟩ := C55_var hP h.fwf.seg hf f2
  obtain ⟨b', b1', -, b2'⟩ := C55_var hP h.gwf.seg hg g2
  obtain ⟨c, c1, -, c2⟩ := C55_mean hP r2.seg r3 (hL.integrable one_le_two)
  obtain ⟨d, d1, -, d2⟩ := C55_var hP r2.seg r3 hL
  rw [a2 hz] at a1
  rw [a2' hz] at a1'
  rw [b2 hz] at b1
  rw [b2' hz] at b1'
  rw [c2 hz] at c1
  rw [d2 hz] at d1
  refine ⟨r, _, _, _, _, r1, a1, a1', b1, b1', ?_, ?_⟩
  · rw [c1, r4, opLaw, integral_map (f := fun x : ℝ => x) hm.aemeasurable (by fun_prop),
      integral_add (i1.comp_fst _) (i2.comp_snd _), integral_fun_fst fun x => x, integral_fun_snd fun x => x, probReal_univ, probReal_univ,
      one_smul, one_smul]
  · rw [d1, r4, opLaw, variance_map aemeasurable_id' hm.aemeasurable]
    have := variance_add_prod (μ := PF.law f) (ν := PF.law g) f2 g2
    rw [← this]
    rfl

/-! ### an example: the fair mixture of 0 and the uniform distribution on `[0, 1]` -/

example : ZeroErr exPar.q := fun _ _ _ => rfl

/-- mean 1/4 and variance 5/48 -/
example : mean exPar.q exPar.qp halfAtom = .ok (some (1 / 4)) ∧ var exPar.q exPar.qp halfAtom = .ok (some ((5 / 48 : ℝ) : EReal)) := by
  have hw := halfAtom_args.fwf.seg
  have h2 : MemLp (fun x => x) 2 (PF.law halfAtom) :=
    (memLp_two_iff_integrable_sq (by fun_prop)).2 (halfAtom_int _ (by fun_prop)).1
  obtain ⟨r, a1, -, a2⟩ := C55_mean exPar_exact hw halfAtom_dens (halfAtom_int _ continuous_id').1
  obtain ⟨r', b1, -, b2⟩ := C55_var exPar_exact hw halfAtom_dens h2
  rw [a1, b1, a2 fun _ _ _ => rfl, b2 fun _ _ _ => rfl, halfAtom_mean]
  refine ⟨rfl, ?_⟩
  rw [variance_eq_integral aemeasurable_id', halfAtom_var]

/-! ### a NaN mean -/

/-- **C55 violated when the mean is NaN**: the mean is NaN when the error estimates are large (for instance for the Cauchy
distribution).  Then `moment(k)` is 0 for every `k > 0`, instead of NaN: `meanf` replaces NaN by 0.  Here a quadrature which
reports an error of 1 and a distribution with variance 5/48. -/
theorem C55_violated_nan (k : ℕ) (hk : k ≠ 0) : let q : Quad := fun g a b => (∫ t in a..b, g t, 1)
    ExactQ q exPar.qp ∧ mean q exPar.qp halfAtom = .ok none ∧ moment q exPar.qp halfAtom k none = .ok (some 0) ∧
    ∫ x, (x - ∫ x, x ∂PF.law halfAtom) ^ 2 ∂PF.law halfAtom = 5 / 48 := by
  intro q
  have hq : ExactQ q exPar.qp := ⟨fun _ _ _ => rfl, exPar_exact.2, exPar_exact.3, exPar_exact.4, exPar_exact.5⟩
  have hm : mean q exPar.qp halfAtom = .ok none := by
    have e : loop q exPar.qp (fun x => x) halfAtom ⟨0, 0, 0, 0⟩ =
        .ok ⟨0 + 1 / 2 * 0 + ∫ x in (0 : ℝ)..1, x * (Seg.const (0 : ℝ) 1 (1 / 2)).call x, 0 + 0 + 1, 0 + |0| + |1|,
          0 + |1 / 2 * 0| + |∫ x in (0 : ℝ)..1, x * (Seg.const (0 : ℝ) 1 (1 / 2)).call x|⟩ := by
      have ht : term q exPar.qp (fun x => x) (.const 0 1 (1 / 2)) =
          .ok (∫ x in (0 : ℝ)..1, x * (Seg.const (0 : ℝ) 1 (1 / 2)).call x, 1) := by
        have n1 : ¬ ((0 : ℝ) : EReal) > ((1 : ℝ) : EReal) := by rw [gt_iff_lt, EReal.coe_lt_coe_iff]; norm_num
        have n2 : ¬ ((0 : ℝ) : EReal) = ((1 : ℝ) : EReal) := by rw [EReal.coe_eq_coe_iff]; norm_num
        show segint q exPar.qp _ ((0 : ℝ) : EReal) ((1 : ℝ) : EReal) false false false false = _
        rw [segint, if_neg n1, if_neg n2, if_neg (by simp), if_neg (by simp),
          if_pos ⟨⟨EReal.coe_ne_top _, EReal.coe_ne_bot _⟩, EReal.coe_ne_top _, EReal.coe_ne_bot _⟩, if_neg (by simp), if_neg (by simp),
          if_neg (by simp), wide,
          if_neg (not_or.2 ⟨EReal.coe_ne_top _, EReal.coe_ne_bot _⟩), if_neg (not_or.2 ⟨EReal.coe_ne_top _, EReal.coe_ne_bot _⟩), EReal.toReal_coe, EReal.toReal_coe, wideFin, if_neg (by simp)]
      rw [halfAtom, loop, term]
      dsimp only
      rw [loop, ht]
      rfl
    rw [mean, e]
    simp only [Except.map]
    rw [if_pos (by norm_num)]
  exact ⟨hq, hm, moment_nan hq halfAtom_args.fwf.seg halfAtom_dens hk hm, halfAtom_var⟩

end Moments
end Pacal
