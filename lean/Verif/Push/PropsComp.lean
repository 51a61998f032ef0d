import Verif.Push.CompLemmas
import Verif.Push.PropsFold

/-!
Functions of a random variable (C22) and the built-in functions with their inverses (C23).

Full C22: for every strictly monotone pair and every distribution the result has the law of `g(X)`.
`C22_law_partial` adds two hypotheses, both needed:
* `SignOK`: where an image end point is infinite the other one has the sign from which the code guesses which infinity it
  is (`C22_violated_sign`); it holds for all functions offered by the library, see the theorems for each of them;
* `PF.ImagesApart`: atoms that come closer than the tolerance are merged (as in C18-C20); empty without atoms.
-/

set_option linter.unusedSimpArgs false

namespace Pacal
open MeasureTheory Set Real

variable {eps : ℝ} {mass : Seg ℝ → ℝ} {l : PF ℝ}

/-- **C22.** A strictly monotone function `g` with inverse `h` and derivative `h'` of the inverse (`MonoPair`; `G` is `g`
on end points, infinite ones included): the distribution built for `g(X)` exists and has exactly the law of `g(X)`. -/
theorem C22_law_partial (he : 0 ≤ eps) {lo hi : Ext ℝ} {G : Ext ℝ → Ext ℝ} {g h h' : ℝ → ℝ} {pole : Bool}
    (H : MonoPair lo hi G g h h') (hl : PF.WF eps l) (hd : PF.Dens l) (hr : ∀ s ∈ l, lo ≤ s.lo ∧ s.hi ≤ hi)
    (hk : ∀ s ∈ l, s.isDirac = false → ∀ p q, (p, q) ∈ s.cutEnds → SignOK G p q)
    (hf : ∀ a m, Seg.dirac a m ∈ l → ∃ y, G (.fin a) = .fin y) (ha : PF.ImagesApart eps g l) :
    ∃ r, PF.copyComposition eps l G h h' pole mass = some r ∧ PF.WF eps r ∧ PF.Dens r ∧
      PF.law r = (PF.law l).map g := by
  obtain ⟨r, h1, h2, h3, h4, -⟩ := comp_all (pole := pole) (mass := mass) he H hl hd hr hk hf ha
  exact ⟨r, h1, h2, h3, h4⟩

/-- **C22 for `exp`** -/
theorem C22_exp (he : 0 ≤ eps) (hl : PF.WF eps l) (hd : PF.Dens l) (ha : PF.ImagesApart eps Real.exp l) :
    ∃ r, expDistr eps mass l = some r ∧ PF.WF eps r ∧ PF.Dens r ∧ PF.law r = (PF.law l).map Real.exp := by
  obtain ⟨r, h1, h2, h3, h4, -⟩ := exp_all (mass := mass) he hl hd ha
  exact ⟨r, h1, h2, h3, h4⟩

/-- **C22 for `log`**: variables with values in `[0, ∞)` and atoms in `(0, ∞)` -/
theorem C22_log (he : 0 ≤ eps) (hl : PF.WF eps l) (hd : PF.Dens l) (h0 : ∀ s ∈ l, .fin 0 ≤ s.lo)
    (hp : ∀ a m, Seg.dirac a m ∈ l → 0 < a) (ha : PF.ImagesApart eps Real.log l) :
    ∃ r, logDistr eps mass true l = some r ∧ PF.WF eps r ∧ PF.Dens r ∧ PF.law r = (PF.law l).map Real.log := by
  obtain ⟨r, h1, h2, h3, h4, -⟩ := log_all (mass := mass) he hl hd h0 hp ha
  exact ⟨r, h1, h2, h3, h4⟩

/-- **C22 for `atan`** -/
theorem C22_atan (he : 0 ≤ eps) (hl : PF.WF eps l) (hd : PF.Dens l) (ha : PF.ImagesApart eps arctan l) :
    ∃ r, atanDistr eps mass l = some r ∧ PF.WF eps r ∧ PF.Dens r ∧ PF.law r = (PF.law l).map arctan :=
  bounded_all he mono_atan hl hd ha

/-- **C22 for `tanh`** -/
theorem C22_tanh (he : 0 ≤ eps) (hl : PF.WF eps l) (hd : PF.Dens l) (ha : PF.ImagesApart eps Real.tanh l) :
    ∃ r, tanhDistr eps mass l = some r ∧ PF.WF eps r ∧ PF.Dens r ∧ PF.law r = (PF.law l).map Real.tanh :=
  bounded_all he mono_tanh hl hd ha

/-- **C22 for the logistic function** -/
theorem C22_sigmoid (he : 0 ≤ eps) (hl : PF.WF eps l) (hd : PF.Dens l)
    (ha : PF.ImagesApart eps (fun x => 1 / (1 + Real.exp (-x))) l) :
    ∃ r, sigmoidDistr eps mass l = some r ∧ PF.WF eps r ∧ PF.Dens r ∧
      PF.law r = (PF.law l).map fun x => 1 / (1 + Real.exp (-x)) := by
  have e : (fun x : ℝ => 1 / (1 + Real.exp (-x))) = sigmoidFn := by
    funext x; rw [sigmoidFn_eq, Real.sigmoid_def, one_div]
  rw [e] at ha ⊢
  exact bounded_all he mono_sigmoid hl hd ha

/-- **C22 for `tan`**: variables with values in an interval `[c, d]` inside `(-π/2, π/2)` -/
theorem C22_tan (he : 0 ≤ eps) (hl : PF.WF eps l) (hd : PF.Dens l) {c d : ℝ} (hc : -(π / 2) < c) (hcd : c ≤ d)
    (hd' : d < π / 2) (hr : ∀ s ∈ l, .fin c ≤ s.lo ∧ s.hi ≤ .fin d) (ha : PF.ImagesApart eps tan l) :
    ∃ r, tanDistr eps mass l = some r ∧ PF.WF eps r ∧ PF.Dens r ∧ PF.law r = (PF.law l).map tan := by
  refine C22_law_partial he (tan_segment hc hd' hcd) hl hd hr ?_ (fun a m _ => ⟨_, rfl⟩) ha
  intro s hs hsd p q h
  have h1 := cutEnds_within h
  exact sign_finite p q ((hr s hs).1.trans h1.1) (cutEnds_lt (hl.seg s hs) hsd h).1 (h1.2.trans (hr s hs).2)

/-- **C22 for `cos`**: the part of the distribution in `[0, 2π)`, the only one the code looks at
(see `C22_violated_cos`) -/
theorem C22_cos_partial (he : 0 ≤ eps) (hl : PF.WF eps l) (hd : PF.Dens l) (ha : PF.ImagesApart eps cos l) :
    ∃ r, cosDistr eps mass l = some r ∧ PF.WF eps r ∧ PF.Dens r ∧
      PF.law r = ((PF.law l).restrict (Ico 0 (2 * π))).map cos := by
  obtain ⟨r, h1, h2, h3, h4⟩ := noninj_all (mass := mass) (pole := false) he hl hd ha cosBranches
    (by
      intro B hB
      simp only [cosBranches, List.mem_cons, List.not_mem_nil, or_false] at hB
      rcases hB with rfl | rfl
      · exact cos_branch1
      · exact cos_branch2) [] ⟨by simp, by simp⟩ (by simp [PF.Dens]) (by simp)
  refine ⟨r, h1, h2, h3, ?_⟩
  rw [h4, PF.law_nil, zero_add]
  simp only [cosBranches, List.map_cons, List.map_nil, List.sum_cons, List.sum_nil, add_zero]
  rw [← Measure.map_add _ _ measurable_cos]
  congr 1
  have e : ∀ a b : ℝ, {x : ℝ | Ext.fin a ≤ .fin x ∧ Ext.fin x < .fin b} = Ico a b := by
    intro a b; ext x; simp [extFin_le, extFin_lt]
  rw [e, e, ← Measure.restrict_union (Ico_disjoint_Ico_same) measurableSet_Ico,
    Ico_union_Ico_eq_Ico pi_pos.le (by linarith [pi_pos])]

/-- **C22 for `X ** d`** with a number `d` other than -1, 0, 1, 2 -/
theorem C22_pow (he : 0 ≤ eps) (hl : PF.WF eps l) (hd : PF.Dens l) (h0 : ∀ s ∈ l, .fin 0 ≤ s.lo)
    (hp : ∀ a m, Seg.dirac a m ∈ l → 0 < a) {d : ℝ} (hd0 : d ≠ 0) (hd1 : d ≠ 1) (hdm : d ≠ -1) (hd2 : d ≠ 2)
    (ha1 : PF.ImagesApart eps Real.log l) (ha2 : PF.ImagesApart (eps / |d|) Real.log l)
    (ha3 : PF.ImagesApart eps (fun x => x ^ d) l) :
    ∃ r, powDistr eps mass true l d = some (.distr r) ∧ PF.WF eps r ∧ PF.Dens r ∧
      PF.law r = (PF.law l).map fun x => x ^ d := by
  obtain ⟨a, b, r, e1, e2, e3, h⟩ := pow_all (mass := mass) he hl hd h0 hp hd0 ha1 ha2 ha3
  refine ⟨r, ?_, h⟩
  rw [powDistr, if_neg hd0, if_neg hd1, if_neg hdm, if_neg hd2, e1, Option.bind_some, e2, Option.bind_some, e3]
  rfl

/-- **C22 for `X ** 2`** -/
theorem C22_pow_two (he : 0 ≤ eps) (hl : PF.WF eps l) (hd : PF.Dens l) (ha : PF.ImagesApart eps (fun x => x * x) l)
    (nonneg : Bool) :
    ∃ r, powDistr eps mass nonneg l 2 = some (.distr r) ∧ PF.WF eps r ∧ PF.Dens r ∧
      PF.law r = (PF.law l).map fun x => x ^ (2 : ℝ) := by
  obtain ⟨r, e, h⟩ := C20_law_partial he hl hd ha
  have e2 : (fun x : ℝ => x ^ (2 : ℝ)) = fun x => x * x := by funext x; rw [Real.rpow_two, sq]
  rw [e2]
  refine ⟨r, ?_, h⟩
  rw [powDistr, if_neg (by norm_num), if_neg (by norm_num), if_neg (by norm_num), if_pos rfl, e]
  rfl

/-- **C22 for `sqrt(X)`**, distributions without atoms -/
theorem C22_sqrt (he : 0 ≤ eps) (hl : PF.WF eps l) (hd : PF.Dens l) (h0 : ∀ s ∈ l, .fin 0 ≤ s.lo)
    (hc : ∀ s ∈ l, s.isDirac = false) :
    ∃ r, sqrtDistr eps mass true l = some (.distr r) ∧ PF.WF eps r ∧ PF.Dens r ∧
      PF.law r = (PF.law l).map Real.sqrt := by
  have e2 : Real.sqrt = fun x : ℝ => x ^ (0.5 : ℝ) := by funext x; rw [Real.sqrt_eq_rpow]; norm_num
  rw [sqrtDistr, if_pos rfl, e2]
  exact C22_pow he hl hd h0 (fun a m h => by have := hc _ h; simp [Seg.isDirac] at this) (by norm_num) (by norm_num)
    (by norm_num) (by norm_num) (.of_continuous hc) (.of_continuous hc) (.of_continuous hc)

/-- **C22 for `c ** X`** with a positive number `c ≠ 1` -/
theorem C22_rpow (he : 0 ≤ eps) {c : ℝ} (hc : 0 < c) (hc1 : c ≠ 1) (hl : PF.WF (eps / |Real.log c|) l) (hd : PF.Dens l)
    (ha : PF.ImagesApart eps (fun x => c ^ x) l) :
    ∃ r, rpowDistr eps mass l c = some (.distr r) ∧ PF.WF eps r ∧ PF.Dens r ∧
      PF.law r = (PF.law l).map fun x => c ^ x := by
  have h0 : Real.log c ≠ 0 := Real.log_ne_zero_of_pos_of_ne_one hc hc1
  obtain ⟨b, e2, w2, d2, l2⟩ := C18_law_partial he h0 0 hl hd
  have at2 := shift_atoms he h0 hl hd e2
  have hpow : ∀ x : ℝ, Real.exp (x * Real.log c + 0) = c ^ x := by
    intro x; rw [add_zero, Real.rpow_def_of_pos hc, mul_comm]
  obtain ⟨r, e3, w3, d3, l3, -⟩ := exp_all (mass := mass) he w2 d2 (by
    intro u n u' n' hu hu'
    obtain ⟨v, m, hv, rfl⟩ := at2 u n hu
    obtain ⟨v', m', hv', rfl⟩ := at2 u' n' hu'
    rw [hpow, hpow]
    exact ha v m v' m' hv hv')
  refine ⟨r, ?_, w3, d3, ?_⟩
  · rw [rpowDistr, if_neg hc.ne', if_neg hc1, if_neg (not_lt.2 hc.le), e2, Option.bind_some, e3]
    rfl
  · rw [l3, l2, Measure.map_map (by fun_prop) (by fun_prop)]
    congr 1
    funext x
    exact hpow x

/-- **C22 for `X ** 0`**: the number 1, the value of `x ^ 0` for every `x`; with it the law of `X ^ 0` is that of a constant -/
theorem C22_pow_zero (nonneg : Bool) : ∃ c, powDistr eps mass nonneg l 0 = some (.number c) ∧ ∀ x : ℝ, x ^ (0 : ℝ) = c := by
  refine ⟨1, ?_, fun x => Real.rpow_zero x⟩
  rw [powDistr, if_pos rfl]

/-- **C22 for `X ** 1`** -/
theorem C22_pow_one (nonneg : Bool) : ∃ r, powDistr eps mass nonneg l 1 = some (.distr r) ∧
    PF.law r = (PF.law l).map fun x => x ^ (1 : ℝ) := by
  refine ⟨l, ?_, ?_⟩
  · rw [powDistr, if_neg (by norm_num), if_pos rfl]
  · simp [Measure.map_id']

/-- **C22 for `1 ** X`** -/
theorem C22_rpow_one : ∃ c, rpowDistr eps mass l 1 = some (.number c) ∧ ∀ x : ℝ, (1 : ℝ) ^ x = c := by
  refine ⟨1, ?_, fun x => Real.one_rpow x⟩
  rw [rpowDistr, if_neg (by norm_num), if_pos rfl]

/-- **C22 for `0 ** X`** with a positive `X` -/
theorem C22_rpow_zero_partial : ∃ c, rpowDistr eps mass l 0 = some (.number c) ∧ ∀ x : ℝ, 0 < x → (0 : ℝ) ^ x = c := by
  refine ⟨0, ?_, fun x hx => Real.zero_rpow hx.ne'⟩
  rw [rpowDistr, if_pos rfl]

/-! ### Violations -/

/-- **C22 violated by `0 ** X`**: for the fair coin on 0 and 1 the result is the number 0, although `0 ** X` is 1 with
probability 1/2 (the value of `0 ** 0`). -/
theorem C22_violated_zero_base : rpowDistr eps mass [.dirac 0 (1 / 2), .dirac 1 (1 / 2)] 0 = some (.number 0) ∧
    ((PF.law [.dirac 0 (1 / 2), .dirac 1 (1 / 2)]).map fun x => (0 : ℝ) ^ x).real {1} = 1 / 2 := by
  refine ⟨by rw [rpowDistr, if_pos rfl], ?_⟩
  have hm : Measurable fun x : ℝ => (0 : ℝ) ^ x := by fun_prop
  have h2 : ENNReal.ofReal (1 / 2) • (Measure.dirac ((0 : ℝ) ^ (1 : ℝ))) {(1 : ℝ)} = 0 := by
    rw [Real.zero_rpow (by norm_num), Measure.dirac_apply' _ (measurableSet_singleton _)]; simp
  rw [measureReal_def, Measure.map_apply hm (measurableSet_singleton _)]
  have e : (PF.law [.dirac 0 (1 / 2), .dirac 1 (1 / 2)]) ((fun x => (0 : ℝ) ^ x) ⁻¹' {1}) = ENNReal.ofReal (1 / 2) := by
    have hs := hm (measurableSet_singleton (1 : ℝ))
    simp only [PF.law, List.map_cons, List.map_nil, List.sum_cons, List.sum_nil, add_zero, Seg.law, Measure.add_apply,
      Measure.smul_apply, Measure.dirac_apply' _ hs, smul_eq_mul]
    rw [indicator_of_mem (by simp), indicator_of_notMem (by simp)]
    simp
  rw [e, ENNReal.toReal_ofReal (by norm_num)]

theorem const_WF {a b c : ℝ} (h : a < b) : PF.WF eps [Seg.const a b c] :=
  ⟨by simpa [Seg.WF] using h, by simp⟩

theorem const_Dens {a b c : ℝ} (h : 0 ≤ c) : PF.Dens [Seg.const a b c] := by
  intro s hs; simp at hs; subst hs; exact const_dens a b h

/-- **C22 violated by the guess of the sign of an infinite end**: `log` of the uniform distribution on `[0, 2]`, built
by the general route for monotone functions (the library avoids this for its own `log` by splitting first), puts no
mass on the negative half line although `P(log X ≤ 0) > 0`. -/
theorem C22_violated_sign (he : 0 ≤ eps) :
    let l : PF ℝ := [.const 0 2 (1 / 2)]
    PF.WF eps l ∧ PF.Dens l ∧ MonoPair (.fin 0) .pinf logExt Real.log logInv logInvDeriv ∧
    ∃ r, PF.copyComposition eps l logExt logInv logInvDeriv false mass = some r ∧ PF.law r (Iic 0) = 0 ∧
      (PF.law l).map Real.log (Iic 0) ≠ 0 := by
  intro l
  have hd : PF.Dens l := const_Dens (by norm_num)
  refine ⟨const_WF (by norm_num), hd, mono_log,
    [.pinf (Real.log 2) (compFn (fun _ => 1 / 2) logInv logInvDeriv)], ?_, ?_, ?_⟩
  · have e : l.flatMap (PF.splitSeg [0]) = [.fin .none 0 2 fun _ => 1 / 2] := by
      simp [l, PF.splitSeg, PF.splitFin]
    rw [PF.copyComposition, splitByPoints_eq he (by simp) (const_WF (by norm_num)), Option.bind_some, e, PF.mapLoop]
    have h2 : logExt (.fin 2) = .fin (Real.log 2) := logExt_pos (by norm_num)
    have h3 : ¬ (Ext.fin (Real.log 2) < .fin 0) := by
      rw [extFin_lt]; exact not_lt.2 (Real.log_nonneg (by norm_num))
    have : Seg.probComposition logExt logInv logInvDeriv false mass (.fin .none 0 2 fun _ => 1 / 2) =
        some (.pinf (Real.log 2) (compFn (fun _ => 1 / 2) logInv logInvDeriv)) := by
      unfold Seg.probComposition
      simp only [Seg.isDirac, Seg.lo, Seg.hi, Seg.fn, logExt_zero, h2]
      rw [if_neg (by simp), if_pos (by rfl), if_neg h3]
      rfl
    show (mapAll _ [_]).bind _ = _
    rw [mapAll, this]
    rfl
  · refine law_null measurableSet_Iic ?_ ?_
    · intro s hs _ x hx
      simp only [List.mem_cons, List.not_mem_nil, or_false] at hs
      subst hs
      have h2 := extFin_lt.1 hx.1
      exact not_le.2 ((Real.log_pos (by norm_num)).trans h2)
    · intro a m h; simp at h
  · rw [Measure.map_apply (by fun_prop) measurableSet_Iic]
    intro h
    have h2 : PF.law l (Ico 0 1) = 0 := by
      refine measure_mono_null ?_ h
      intro x hx
      exact Real.log_nonpos hx.1 hx.2.le
    have h3 : (PF.law l).real (Ico 0 1) = 1 / 2 := by
      rw [PF.law_real_eq_sum hd]
      simp only [l, List.map_cons, List.map_nil, List.sum_cons, List.sum_nil, add_zero]
      rw [Seg.law_real rfl (const_dens _ _ (by norm_num)) measurableSet_Ico]
      have : EqOn (fun x => (Seg.const (0 : ℝ) 2 (1 / 2)).val x) (fun _ => 1 / 2) (Ico 0 1) := by
        intro x hx
        simp only [const_val]
        rw [if_pos ⟨hx.1, hx.2.trans (by norm_num)⟩]
      rw [setIntegral_congr_fun measurableSet_Ico this]
      simp [Measure.real, Real.volume_Ico]
    rw [Measure.real, h2] at h3
    norm_num at h3

/-- **C22 violated by `cos` outside `[0, 2π)`**: for every distribution on the other side the library returns a
function without any mass (here the uniform distribution on `[2π, 2π + 1]`). -/
theorem C22_violated_cos (he : 0 ≤ eps) :
    let l : PF ℝ := [.const (2 * π) (2 * π + 1) 1]
    PF.WF eps l ∧ PF.Dens l ∧ (PF.law l).real univ = 1 ∧ ∃ r, cosDistr eps mass l = some r ∧ PF.law r = 0 := by
  intro l
  have hw : PF.WF eps l := const_WF (by linarith)
  have hd : PF.Dens l := const_Dens (by norm_num)
  have hn : ∀ s ∈ l, s.isDirac = false := by intro s hs; simp [l] at hs; subst hs; rfl
  refine ⟨hw, hd, ?_, ?_⟩
  · rw [PF.law_real_eq_sum hd]
    simp only [l, List.map_cons, List.map_nil, List.sum_cons, List.sum_nil, add_zero]
    rw [const_mass _ _ (by norm_num) (by linarith)]
    ring
  · obtain ⟨r, e, -, -, h⟩ := C22_cos_partial (mass := mass) he hw hd (.of_continuous hn)
    refine ⟨r, e, ?_⟩
    rw [h, Measure.restrict_eq_zero.2, Measure.map_zero]
    refine law_null measurableSet_Ico ?_ ?_
    · intro s hs _ x hx hx'
      simp only [l, List.mem_cons, List.not_mem_nil, or_false] at hs
      subst hs
      exact absurd (extFin_lt.1 hx.1) (not_lt.2 hx'.2.le)
    · intro a m h; have := hn _ h; simp [Seg.isDirac] at this

/-- **Finding**: `log` of a distribution with an atom at 0 raises an exception -/
theorem C22_finding_log_atom0 (he : 0 ≤ eps) (m : ℝ) : logDistr eps mass true [.dirac 0 m] = none := by
  have hw : PF.WF eps [Seg.dirac (0 : ℝ) m] := ⟨by simp [Seg.WF], by simp⟩
  have e : ∀ ps : List ℝ, [Seg.dirac (0 : ℝ) m].flatMap (PF.splitSeg ps) = [Seg.dirac 0 m] := by intro; simp [PF.splitSeg]
  rw [logDistr, if_pos rfl, PF.copyLogComposition, splitByPoints_eq he (by norm_num) hw, e, Option.bind_some,
    PF.copyComposition, splitByPoints_eq he (by simp) hw, e, Option.bind_some, PF.mapLoop]
  have : Seg.probComposition logExt logInv logInvDeriv false mass (.dirac 0 m) = none := by
    unfold Seg.probComposition
    simp only [Seg.isDirac, if_true, Seg.lo, logExt_zero]
    rfl
  show (mapAll _ [_]).bind _ = _
  rw [mapAll, this]
  rfl

/-! ### C23 -/

/-- **C23.** The inverses and derivatives used by the library for its monotone functions -/
theorem C23_inverses :
    InverseOn Real.exp expInv expInvDeriv univ (Ioi 0) ∧
    InverseOn Real.log logInv logInvDeriv (Ioi 0) univ ∧
    InverseOn arctan atanInv atanInvDeriv univ (Ioo (-(π / 2)) (π / 2)) ∧
    InverseOn Real.tanh tanhInv tanhInvDeriv univ (Ioo (-1) 1) ∧
    InverseOn (fun x => 1 / (1 + Real.exp (-x))) sigmoidInv sigmoidInvDeriv univ (Ioo 0 1) ∧
    InverseOn tan tanInv tanInvDeriv (Ioo (-(π / 2)) (π / 2)) univ := by
  have e : (fun x : ℝ => 1 / (1 + Real.exp (-x))) = sigmoidFn := by
    funext x; rw [sigmoidFn_eq, Real.sigmoid_def, one_div]
  rw [e]
  exact ⟨inv_exp, inv_log, inv_atan, inv_tanh, inv_sigmoid, inv_tan⟩

/-- **C23** for the branches of `cos` and the first branch of `sin`.  Missing from the full statement: the second branch
of `sin`, which is wrong in the code (`C23_violated_sin2`). -/
theorem C23_branches_partial :
    InverseOn cos arccos arccosDer1 (Ioo 0 π) (Ioo (-1) 1) ∧
    InverseOn cos twopiMArccos arccosDer2 (Ioo π (2 * π)) (Ioo (-1) 1) ∧
    InverseOn sin arcsin arcsinDer1 (Ioo (-(π / 2)) (π / 2)) (Ioo (-1) 1) :=
  ⟨inv_cos1, inv_cos2, inv_sin1⟩

/-- **C23 violated by `sin`**: the function used as the inverse of `sin` on `[π/2, 3π/2]` is `2π - arccos`; at every
`y` its sine is `-√(1 - y²)` instead of `y`, so it is not an inverse. -/
theorem C23_violated_sin2 :
    (∀ y, sin (piMArcsin y) = -√(1 - y ^ 2)) ∧
    ¬ InverseOn sin piMArcsin arcsinDer1 (Ioo (π / 2) (3 * π / 2)) (Ioo (-1) 1) := by
  have h : ∀ y, sin (piMArcsin y) = -√(1 - y ^ 2) := by
    intro y; rw [piMArcsin, sin_two_pi_sub, sin_arccos]
  refine ⟨h, fun H => ?_⟩
  have := (H.2 0 (by norm_num)).2.1
  rw [h] at this
  norm_num at this

/-- **C23 violated by `Sq2Distr`**: the inverses of the two branches of `x²` are swapped. -/
theorem C23_violated_sq2 : ∀ B ∈ sq2Branches, ∃ x : ℝ, B.lo ≤ .fin x ∧ .fin x < B.hi ∧ B.finv (x ^ 2) ≠ x := by
  intro B hB
  simp only [sq2Branches, List.mem_cons, List.not_mem_nil, or_false] at hB
  rcases hB with rfl | rfl
  · exact ⟨-1, ninf_le_ext _, extFin_lt.2 (by norm_num), by norm_num⟩
  · exact ⟨1, extFin_le.2 (by norm_num), extFin_lt_pinf _, by norm_num⟩

/-! ### Examples -/

/-- The uniform distribution on `[0, 1]` with an atom of mass 1/2 at 2 meets the hypotheses. -/
example : ∃ r r', expDistr (1 / 100) mass [.const 0 1 (1 / 2), .dirac 2 (1 / 2)] = some r ∧
    logDistr (1 / 100) mass true [.const 0 1 (1 / 2), .dirac 2 (1 / 2)] = some r' ∧
    PF.law r (Iic (Real.exp 0)) = 0 ∧ (PF.law r').real {Real.log 2} = 1 / 2 := by
  obtain ⟨l, hl⟩ : ∃ l : PF ℝ, l = [.const 0 1 (1 / 2), .dirac 2 (1 / 2)] := ⟨_, rfl⟩
  have hw : PF.WF (1 / 100 : ℝ) l := by
    subst hl
    refine wf_pair (by simp [Seg.WF]) (by simp [Seg.WF]) ⟨?_, by rintro a m a' m' h; cases h⟩
    exact extFin_le.2 (by norm_num)
  have hd : PF.Dens l := by
    subst hl; exact dens_pair (const_dens 0 1 (by norm_num)) (by norm_num [Seg.Dens])
  have hmem : ∀ a m, Seg.dirac a m ∈ l → a = 2 := by
    intro a m h; simp [hl] at h; exact h.1
  have ha : ∀ g, PF.ImagesApart (1 / 100) g l := by
    intro g a m a' m' h h'
    rw [hmem _ _ h, hmem _ _ h']; exact .inl rfl
  have h0 : ∀ s ∈ l, .fin 0 ≤ s.lo := by
    intro s hs; simp only [hl, List.mem_cons, List.not_mem_nil, or_false] at hs
    rcases hs with rfl | rfl <;> exact extFin_le.2 (by norm_num)
  obtain ⟨r, e, -, -, h⟩ := C22_exp (mass := mass) (by norm_num) hw hd (ha _)
  obtain ⟨r', e', -, -, h'⟩ := C22_log (mass := mass) (by norm_num) hw hd h0
    (fun a m h => by rw [hmem a m h]; norm_num) (ha _)
  rw [← hl]
  refine ⟨r, r', e, e', ?_, ?_⟩
  · rw [h, Measure.map_apply (by fun_prop) measurableSet_Iic]
    refine law_null (Real.measurable_exp measurableSet_Iic) ?_ ?_
    · intro s hs hsd x hx hx'
      simp only [hl, List.mem_cons, List.not_mem_nil, or_false] at hs
      rcases hs with rfl | rfl
      · have h1 := extFin_lt.1 hx.1
        simp only [mem_preimage, mem_Iic, Real.exp_le_exp] at hx'
        exact absurd h1 (not_lt.2 hx')
      · simp [Seg.isDirac] at hsd
    · intro a m h1
      rw [hmem a m h1]
      simp only [mem_preimage, mem_Iic, Real.exp_le_exp]
      norm_num
  · rw [h', Measure.real, Measure.map_apply (by fun_prop) (measurableSet_singleton _)]
    have : IsFiniteMeasure (PF.law l) := PF.law_finite hd
    have h1 : PF.law l (Real.log ⁻¹' {Real.log 2}) = PF.law l {2} := by
      refine le_antisymm ?_ (measure_mono (by simp))
      have : Real.log ⁻¹' {Real.log 2} ⊆ {2} ∪ Iio 0 := by
        intro x hx
        simp only [mem_preimage, mem_singleton_iff] at hx
        rcases lt_trichotomy x 0 with h | rfl | h
        · exact .inr h
        · rw [Real.log_zero] at hx; have := Real.log_pos (show (1 : ℝ) < 2 by norm_num); linarith
        · exact .inl (Real.log_injOn_pos h (show (0 : ℝ) < 2 by norm_num) hx)
      refine (measure_mono this).trans ((measure_union_le _ _).trans ?_)
      rw [law_null (A := Iio 0) measurableSet_Iio, add_zero]
      · intro s hs _ x hx hx'
        exact absurd (extFin_lt.1 (lt_of_le_of_lt (h0 s hs) hx.1)) (not_lt.2 hx'.le)
      · intro a m h1 h2
        rw [hmem a m h1] at h2; simp at h2; linarith
    rw [h1]
    show (PF.law l).real {2} = _
    rw [law_singleton hd, hl]
    norm_num [PF.massAt, Seg.massAt]

end Pacal
