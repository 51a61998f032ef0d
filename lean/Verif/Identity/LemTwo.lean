import Verif.Identity.LemUn
import Verif.Identity.LemExpr
import Mathlib.MeasureTheory.Group.Convolution

/-!
Lemmas for `Verif.Identity.PropsTable`: sums, differences, quotients, minima and maxima of two standard distributions.
-/

namespace Pacal.Identity
open MeasureTheory ProbabilityTheory Standard Set Real

/-! ### functions of the arguments -/

/-- the same function of both arguments -/
theorem opLaw_map {op op' : ℝ → ℝ → ℝ} {g h k : ℝ → ℝ} {μ ν : Measure ℝ} [IsProbabilityMeasure μ] [IsProbabilityMeasure ν]
    (hop : Measurable fun p : ℝ × ℝ => op p.1 p.2) (hop' : Measurable fun p : ℝ × ℝ => op' p.1 p.2) (hg : Measurable g)
    (hh : Measurable h) (hk : Measurable k) (he : ∀ᵐ p ∂μ.prod ν, op (g p.1) (h p.2) = k (op' p.1 p.2)) :
    opLaw op (μ.map g) (ν.map h) = (opLaw op' μ ν).map k := by
  have := Measure.isProbabilityMeasure_map (μ := ν) hh.aemeasurable
  rw [opLaw, opLaw, Measure.map_prod_map _ _ hg hh, Measure.map_map hop (hg.prodMap hh), Measure.map_map hk hop']
  exact Measure.map_congr he

theorem opLaw_swap {op : ℝ → ℝ → ℝ} {μ ν : Measure ℝ} [IsProbabilityMeasure μ] [IsProbabilityMeasure ν]
    (hop : Measurable fun p : ℝ × ℝ => op p.1 p.2) : opLaw op μ ν = opLaw (fun a b => op b a) ν μ := by
  rw [opLaw, opLaw, ← Measure.prod_swap, Measure.map_map hop measurable_swap]
  rfl

theorem meas_min : Measurable fun p : ℝ × ℝ => min p.1 p.2 := measurable_fst.min measurable_snd
theorem meas_max : Measurable fun p : ℝ × ℝ => max p.1 p.2 := measurable_fst.max measurable_snd
theorem meas_div : Measurable fun p : ℝ × ℝ => p.1 / p.2 := by fun_prop
theorem meas_sub : Measurable fun p : ℝ × ℝ => p.1 - p.2 := by fun_prop
theorem meas_add : Measurable fun p : ℝ × ℝ => p.1 + p.2 := by fun_prop
theorem meas_mul : Measurable fun p : ℝ × ℝ => p.1 * p.2 := by fun_prop

/-- both variables are positive -/
theorem both_pos {f g : ℝ → ℝ} (hf : ∀ x < 0, f x = 0) (hg : ∀ x < 0, g x = 0) [SFinite (Textbook.law g)] :
    ∀ᵐ p ∂(Textbook.law f).prod (Textbook.law g), 0 < p.1 ∧ 0 < p.2 := by
  have one : ∀ {f : ℝ → ℝ}, (∀ x < 0, f x = 0) → ∀ᵐ x ∂Textbook.law f, 0 < x := by
    intro f hf
    have hz : Textbook.law f (Iic 0) = 0 := by
      rw [Textbook.law, withDensity_apply _ measurableSet_Iic, setLIntegral_congr Iio_ae_eq_Iic.symm]
      refine (setLIntegral_congr_fun measurableSet_Iio (g := fun _ => 0) fun x hx => ?_).trans (by simp)
      simp only [hf x hx, ENNReal.ofReal_zero]
    rw [ae_iff]
    refine measure_mono_null (fun x hx => ?_) hz
    exact not_lt.1 hx
  exact Filter.Eventually.and (Measure.quasiMeasurePreserving_fst.ae (one hf)) (Measure.quasiMeasurePreserving_snd.ae (one hg))

/-! ### normal variables -/

theorem normal_add (m₁ m₂ s₁ s₂ : ℝ) :
    opLaw (· + ·) (kindLaw (.normal m₁ s₁)) (kindLaw (.normal m₂ s₂)) = kindLaw (.normal (m₁ + m₂) (√(s₁ ^ 2 + s₂ ^ 2))) := by
  have h := gaussianReal_conv_gaussianReal (m₁ := m₁) (m₂ := m₂) (v₁ := (s₁ ^ 2).toNNReal) (v₂ := (s₂ ^ 2).toNNReal)
  rw [Measure.conv] at h
  rw [kindLaw, kindLaw, kindLaw, opLaw, h, sq_sqrt (by positivity), Real.toNNReal_add (sq_nonneg _) (sq_nonneg _)]

theorem sub_eq_add {μ ν : Measure ℝ} [IsProbabilityMeasure μ] [IsProbabilityMeasure ν] :
    opLaw (· - ·) μ ν = opLaw (· + ·) μ (ν.map (stepFn (.shiftScale 0 (-1)))) := by
  have := opLaw_map (op := (· + ·)) (op' := (· - ·)) (g := id) (k := id) (μ := μ) (ν := ν) meas_add meas_sub measurable_id
    (measurable_fn (.shiftScale 0 (-1))) measurable_id (Filter.Eventually.of_forall fun p => by simp only [stepFn, id]; ring)
  rw [Measure.map_id, Measure.map_id] at this
  exact this.symm

theorem normal_sub (m₁ m₂ s₁ : ℝ) {s₂ : ℝ} :
    opLaw (· - ·) (kindLaw (.normal m₁ s₁)) (kindLaw (.normal m₂ s₂)) = kindLaw (.normal (m₁ - m₂) (√(s₁ ^ 2 + s₂ ^ 2))) := by
  have i1 : IsProbabilityMeasure (kindLaw (.normal m₁ s₁)) := by rw [kindLaw]; infer_instance
  have i2 : IsProbabilityMeasure (kindLaw (.normal m₂ s₂)) := by rw [kindLaw]; infer_instance
  rw [sub_eq_add, normal_aff, normal_add, mul_neg, mul_one, add_zero, abs_neg, abs_one, one_mul, sub_eq_add_neg]

theorem normal_div {s₁ s₂ : ℝ} (h₁ : 0 < s₁) (h₂ : 0 < s₂) :
    opLaw (· / ·) (kindLaw (.normal 0 s₁)) (kindLaw (.normal 0 s₂)) = kindLaw (.cauchy (s₁ / s₂) 0) := by
  have e : ∀ {s : ℝ}, 0 < s → kindLaw (.normal 0 s) = (kindLaw (.normal 0 1)).map (stepFn (.shiftScale 0 s)) := by
    intro s hs
    rw [normal_aff, zero_mul, add_zero, mul_one, abs_of_pos hs]
  have i1 : IsProbabilityMeasure (kindLaw (.normal 0 1)) := by rw [kindLaw]; infer_instance
  have hc : opLaw (· / ·) (kindLaw (.normal 0 1)) (kindLaw (.normal 0 1)) = kindLaw (.cauchy 1 0) := by
    rw [cauchy_pdf one_pos]
    refine Sampler.cauchy_quotient.trans ?_
    congr 1
    ext x
    have : 0 < 1 + x ^ 2 := by positivity
    rw [sub_zero, one_pow, add_comm (x ^ 2)]
    field_simp
  rw [e h₁, e h₂, opLaw_map (op' := (· / ·)) (k := stepFn (.shiftScale 0 (s₁ / s₂))) meas_div meas_div (measurable_fn _) (measurable_fn _)
    (measurable_fn _) (Filter.Eventually.of_forall fun p => ?_), hc, cauchy_aff one_pos _ _ (div_pos h₁ h₂).ne', zero_mul, add_zero, mul_one,
    abs_of_pos (div_pos h₁ h₂)]
  simp only [stepFn, add_zero]
  rw [mul_div_mul_comm]

/-! ### minima and maxima -/

theorem tail_min {μ ν : Measure ℝ} [IsProbabilityMeasure μ] [IsProbabilityMeasure ν] (x : ℝ) :
    opLaw min μ ν (Ioi x) = μ (Ioi x) * ν (Ioi x) := by
  rw [opLaw, Measure.map_apply meas_min measurableSet_Ioi, ← Measure.prod_prod]
  congr 1
  ext p
  simp [lt_min_iff]

theorem exp_tail {r : ℝ} (hr : 0 < r) (x : ℝ) : kindLaw (.exponential r) (Ioi x) = ENNReal.ofReal (exp (-(r * max x 0))) := by
  have := isProbabilityMeasure_expMeasure hr
  have h := cdf_expMeasure_eq hr x
  rw [cdf_eq_real] at h
  have hc : Ioi x = (Iic x)ᶜ := by simp
  rw [kindLaw, hc, ← ofReal_measureReal, probReal_compl_eq_one_sub measurableSet_Iic, h]
  congr 1
  split_ifs with h0
  · rw [max_eq_left h0]; ring
  · rw [max_eq_right (not_le.1 h0).le]; simp

theorem exp_min {r₁ r₂ : ℝ} (h₁ : 0 < r₁) (h₂ : 0 < r₂) :
    opLaw min (kindLaw (.exponential r₁)) (kindLaw (.exponential r₂)) = kindLaw (.exponential (r₁ + r₂)) := by
  have i1 : IsProbabilityMeasure (kindLaw (.exponential r₁)) := isProbabilityMeasure_expMeasure h₁
  have i2 : IsProbabilityMeasure (kindLaw (.exponential r₂)) := isProbabilityMeasure_expMeasure h₂
  have i3 : IsProbabilityMeasure (kindLaw (.exponential (r₁ + r₂))) := isProbabilityMeasure_expMeasure (add_pos h₁ h₂)
  have i4 := opLaw_prob meas_min (kindLaw (.exponential r₁)) (kindLaw (.exponential r₂))
  refine Measure.ext_of_Iic _ _ fun x => ?_
  have hc : Iic x = (Ioi x)ᶜ := by simp
  rw [hc, prob_compl_eq_one_sub measurableSet_Ioi, prob_compl_eq_one_sub measurableSet_Ioi, tail_min, exp_tail h₁, exp_tail h₂,
    exp_tail (add_pos h₁ h₂), ← ENNReal.ofReal_mul (exp_pos _).le, ← exp_add]
  congr 3
  ring

/-- the smaller of two increasing functions of exponential variables, the larger of two decreasing ones -/
theorem exp_push {op : ℝ → ℝ → ℝ} (hop : Measurable fun p : ℝ × ℝ => op p.1 p.2) {r₁ r₂ : ℝ} (h₁ : 0 < r₁) (h₂ : 0 < r₂) {g : ℝ → ℝ}
    (hg : Measurable g) (he : ∀ x y, 0 < x → 0 < y → op (g x) (g y) = g (min x y)) :
    opLaw op ((kindLaw (.exponential r₁)).map g) ((kindLaw (.exponential r₂)).map g) = (kindLaw (.exponential (r₁ + r₂))).map g := by
  have i1 : IsProbabilityMeasure (kindLaw (.exponential r₁)) := isProbabilityMeasure_expMeasure h₁
  have i2 : IsProbabilityMeasure (kindLaw (.exponential r₂)) := isProbabilityMeasure_expMeasure h₂
  rw [opLaw_map (op' := min) (k := g) hop meas_min hg hg hg, exp_min h₁ h₂]
  have i3 : SFinite (Textbook.law (gammaPDFReal 1 r₂)) := by rw [← exp_law]; infer_instance
  rw [exp_law, exp_law]
  filter_upwards [both_pos (fun x hx => gamma_neg hx) (fun x hx => gamma_neg hx)] with p hp
  exact he _ _ hp.1 hp.2

theorem min_mono {g : ℝ → ℝ} (hg : ∀ x y, 0 < x → 0 < y → x ≤ y → g x ≤ g y) {x y : ℝ} (hx : 0 < x) (hy : 0 < y) :
    min (g x) (g y) = g (min x y) := by
  rcases le_total x y with h | h
  · rw [min_eq_left h, min_eq_left (hg x y hx hy h)]
  · rw [min_eq_right h, min_eq_right (hg y x hy hx h)]

theorem max_anti {g : ℝ → ℝ} (hg : ∀ x y, 0 < x → 0 < y → x ≤ y → g y ≤ g x) {x y : ℝ} (hx : 0 < x) (hy : 0 < y) :
    max (g x) (g y) = g (min x y) := by
  rcases le_total x y with h | h
  · rw [min_eq_left h, max_eq_left (hg x y hx hy h)]
  · rw [min_eq_right h, max_eq_right (hg y x hy hx h)]

/-- a Weibull variable is a power of an exponential variable -/
theorem weibull_of {k l : ℝ} (hk : 0 < k) (hl : 0 < l) :
    kindLaw (.weibull k l) = (kindLaw (.exponential (l ^ (-k)))).map (stepFn (.pow (1 / k))) := by
  rw [pow_exponential (rpow_pos_of_pos hl _) (by positivity), one_div_one_div, rpow_neg hl.le, one_div, inv_inv, ← rpow_mul hl.le,
    mul_one_div_cancel hk.ne', rpow_one]

theorem weibull_min {k l₁ l₂ : ℝ} (hk : 0 < k) (h₁ : 0 < l₁) (h₂ : 0 < l₂) :
    opLaw min (kindLaw (.weibull k l₁)) (kindLaw (.weibull k l₂)) = kindLaw (.weibull k ((l₁ ^ (-k) + l₂ ^ (-k)) ^ (-1 / k))) := by
  have p₁ := rpow_pos_of_pos h₁ (-k)
  have p₂ := rpow_pos_of_pos h₂ (-k)
  rw [weibull_of hk h₁, weibull_of hk h₂, weibull_of hk (rpow_pos_of_pos (add_pos p₁ p₂) _), ← rpow_mul (add_pos p₁ p₂).le,
    show -1 / k * -k = 1 by field_simp, rpow_one]
  exact exp_push meas_min p₁ p₂ (measurable_fn _) fun x y hx hy =>
    min_mono (fun x y hx _ h => rpow_le_rpow hx.le h (by positivity)) hx hy

theorem frechet_max {al s₁ s₂ : ℝ} (ha : 0 < al) (h₁ : 0 < s₁) (h₂ : 0 < s₂) :
    opLaw max (kindLaw (.frechet al s₁ 0)) (kindLaw (.frechet al s₂ 0)) = kindLaw (.frechet al ((s₁ ^ al + s₂ ^ al) ^ (1 / al)) 0) := by
  have p₁ := rpow_pos_of_pos h₁ al
  have p₂ := rpow_pos_of_pos h₂ al
  have e : ∀ {s : ℝ}, 0 < s → kindLaw (.frechet al s 0) =
      (kindLaw (.exponential (s ^ al))).map (stepFn .inv ∘ stepFn (.pow (1 / al))) := by
    intro s hs
    have h := inv_weibull (k := al) (l := 1 / s) (by positivity)
    rw [one_div_one_div, weibull_of ha (by positivity), Measure.map_map (measurable_fn _) (measurable_fn _)] at h
    rw [← h, rpow_neg (by positivity), one_div s, inv_rpow hs.le, inv_inv]
  rw [e h₁, e h₂, e (rpow_pos_of_pos (add_pos p₁ p₂) _), ← rpow_mul (add_pos p₁ p₂).le, one_div_mul_cancel ha.ne', rpow_one]
  exact exp_push meas_max p₁ p₂ ((measurable_fn _).comp (measurable_fn _)) fun x y hx hy =>
    max_anti (fun x y hx hy h => by
      simp only [Function.comp_apply, stepFn]
      exact inv_anti₀ (rpow_pos_of_pos hx _) (rpow_le_rpow hx.le h (by positivity))) hx hy

theorem pareto_min {a₁ a₂ xm : ℝ} (h₁ : 0 < a₁) (h₂ : 0 < a₂) (hx : 0 < xm) :
    opLaw min (kindLaw (.pareto a₁ xm)) (kindLaw (.pareto a₂ xm)) = kindLaw (.pareto (a₁ + a₂) xm) := by
  have e : ∀ {a : ℝ}, 0 < a → kindLaw (.pareto a xm) =
      (kindLaw (.exponential a)).map (stepFn (.shiftScale 0 xm) ∘ stepFn .exp) := by
    intro a ha
    rw [← Measure.map_map (measurable_fn _) (measurable_fn _), exp_exponential ha, pareto_scale one_pos hx, mul_one]
  rw [e h₁, e h₂, e (add_pos h₁ h₂)]
  exact exp_push meas_min h₁ h₂ ((measurable_fn _).comp (measurable_fn _)) fun x y hx' hy =>
    min_mono (fun x y _ _ h => by
      simp only [Function.comp_apply, stepFn, add_zero]
      exact mul_le_mul_of_nonneg_right (exp_le_exp.2 h) hx.le) hx' hy

/-- a variable with density `a x ^ (a - 1)` on the unit interval is a decreasing function of an exponential variable -/
theorem beta_of {a : ℝ} (ha : 0 < a) :
    kindLaw (.beta a 1) = (kindLaw (.exponential a)).map (stepFn .inv ∘ stepFn .exp) := by
  rw [← Measure.map_map (measurable_fn _) (measurable_fn _), exp_exponential ha, inv_pareto ha]

theorem beta_max {a b : ℝ} (ha : 0 < a) (hb : 0 < b) :
    opLaw max (kindLaw (.beta a 1)) (kindLaw (.beta b 1)) = kindLaw (.beta (a + b) 1) := by
  rw [beta_of ha, beta_of hb, beta_of (add_pos ha hb)]
  exact exp_push meas_max ha hb ((measurable_fn _).comp (measurable_fn _)) fun x y hx hy =>
    max_anti (fun x y hx hy h => by
      simp only [Function.comp_apply, stepFn]
      exact inv_anti₀ (exp_pos _) (exp_le_exp.2 h)) hx hy

end Pacal.Identity
