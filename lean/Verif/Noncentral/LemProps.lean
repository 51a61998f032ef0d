import Verif.Noncentral.LemEval
import Verif.Identity.PropsExact

/-!
Lemmas for `Verif.Noncentral.Props`: relations between the laws.
-/

namespace Pacal.Noncentral
open MeasureTheory ProbabilityTheory Standard Identity Set Real

theorem computes_of {M : Machine} (hM : Unlimited M) {o : Option Expr} {e : Expr} (ho : o = some e) (hd : Defined M.neg0 e)
    {μ : Measure ℝ} (hl : exprLaw e = μ) : Computes M o μ := by
  obtain ⟨r, h1, h2, h3, h4⟩ := C68_unlimited_partial hM hd
  have := expr_prob (defined_ok hM hd).1
  exact ⟨e, r, ho, h1, h2, h3, h4.trans hl, by rw [← hl]; exact measure_univ⟩

theorem fLaw_central {a b : ℝ} (ha : 0 < a) (hb : 0 < b) : fLaw a b 0 = kindLaw (.fDistr a b) := by
  rw [← f_law ha hb le_rfl, chiSquare_central, fisher_div ha hb]

theorem betaLaw_central (a b : ℝ) : betaLaw a b 0 = kindLaw (.beta a b) := by
  rw [betaLaw, zero_div, mix_zero, kindLaw]; simp

theorem tLaw_central {v : ℝ} (hv : 0 < v) : tLaw v 0 = kindLaw (.studentT v) := by
  rw [← t_law hv 0, student_div hv]

theorem sum_sq_nonneg (l : List ℝ) : 0 ≤ (l.map (· ^ 2)).sum := by
  refine List.sum_nonneg fun x hx => ?_
  obtain ⟨y, -, rfl⟩ := List.mem_map.1 hx
  exact sq_nonneg y

theorem length_ok (m : ℝ) (ms : List ℝ) : ((m :: ms).length : ℝ) = 1 ∨ (2 : ℝ) ≤ (m :: ms).length := by
  cases ms with
  | nil => left; simp
  | cons m' ms => right; exact_mod_cast Nat.le_add_left 2 ms.length

theorem sumSquares_law (m : ℝ) (ms : List ℝ) :
    exprLaw (sumSquares m ms) = chiSquareLaw (m :: ms).length ((m :: ms).map (· ^ 2)).sum := by
  induction ms generalizing m with
  | nil =>
    rw [sumSquares, exprLaw, exprLaw, square_noncentral]
    simp
  | cons m' ms ih =>
    rw [sumSquares, exprLaw, ih, exprLaw, exprLaw, square_noncentral,
      chiSquare_add one_pos (by simp; positivity) (sq_nonneg _) (sum_sq_nonneg _), List.map_cons, List.sum_cons]
    congr 1
    simp
    ring

theorem sumSquares_defined (neg0 : Bool) (m : ℝ) (ms : List ℝ) : Defined neg0 (sumSquares m ms) := by
  have hq : ∀ m, Defined neg0 (.step .square (.dist (.normal m 1))) := fun m => ⟨⟨one_pos, trivial⟩, trivial, trivial⟩
  have hg : ∀ m ms, Gapless neg0 (sumSquares m ms) := by
    intro m ms
    cases ms with
    | nil => exact trivial
    | cons m' ms => exact .inl trivial
  induction ms generalizing m with
  | nil => exact hq m
  | cons m' ms ih => exact ⟨hq m, ih m', trivial, hg _ _⟩

theorem t_square {v : ℝ} (hv : 0 < v) (μ : ℝ) :
    (opLaw (· / ·) (kindLaw (.normal μ 1)) (((kindLaw (.chiSquare v)).map (stepFn (.shiftScale 0 (1 / v)))).map (stepFn (.pow (1 / 2))))).map
      (stepFn .square) = fLaw 1 v (μ ^ 2) := by
  have i0 : IsProbabilityMeasure (gammaMeasure (v / 2) (1 / 2)) := isProbabilityMeasure_gammaMeasure (half_pos hv) (by norm_num)
  obtain ⟨ν, hν⟩ : ∃ ν, ν = (kindLaw (.chiSquare v)).map (stepFn (.shiftScale 0 (1 / v))) := ⟨_, rfl⟩
  have i1 : IsProbabilityMeasure ν := by rw [hν, kindLaw]; exact Measure.isProbabilityMeasure_map (measurable_fn _).aemeasurable
  have i2 : IsProbabilityMeasure (kindLaw (.normal μ 1)) := by rw [kindLaw]; infer_instance
  rw [← f_law one_pos hv (sq_nonneg μ), ← square_noncentral, ← hν]
  have e1 : (1 : ℝ) / 1 = 1 := div_one 1
  rw [e1, scale_one]
  have hs : (ν.map (stepFn (.pow (1 / 2)))).map (stepFn .square) = ν := by
    rw [Measure.map_map (measurable_fn _) (measurable_fn _)]
    conv_rhs => rw [← Measure.map_id (μ := ν)]
    refine Measure.map_congr ?_
    have hpos : ∀ᵐ x ∂ν, 0 ≤ x := by
      rw [hν, kindLaw, gamma_scale (by norm_num) (by positivity)]
      refine (ae_withDensity_iff (measurable_gammaPDFReal _ _).ennreal_ofReal).2 (Filter.Eventually.of_forall fun x hx => ?_)
      by_contra h
      exact hx (by change ENNReal.ofReal (gammaPDFReal _ _ x) = 0; rw [gamma_neg (not_le.1 h), ENNReal.ofReal_zero])
    filter_upwards [hpos] with x hx
    simp only [Function.comp_apply, stepFn, id]
    rw [← sqrt_eq_rpow, sq_sqrt hx]
  conv_rhs => rw [← hs]
  have i3 := Measure.isProbabilityMeasure_map (μ := ν) (measurable_fn (.pow (1 / 2))).aemeasurable
  refine (opLaw_map meas_div meas_div (measurable_fn _) (measurable_fn _) (measurable_fn _) (Filter.Eventually.of_forall fun p => ?_)).symm
  simp only [stepFn]
  rw [div_pow]

end Pacal.Noncentral
