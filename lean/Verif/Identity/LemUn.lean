import Verif.Identity.LemAff

/-!
Lemmas for `Verif.Identity.PropsTable`: functions of one standard distribution.
-/

namespace Pacal.Identity
open MeasureTheory ProbabilityTheory Standard Set Real

/-- change of variables between densities on the positive numbers -/
theorem pos_map {g g' f h : ℝ → ℝ} (hg : Measurable g) (hd : ∀ x, 0 < x → HasDerivAt g (g' x) x)
    (hi : InjOn g (Ioi 0)) (him : g '' Ioi 0 = Ioi 0) (hf : ∀ x < 0, f x = 0) (hh : ∀ x < 0, h x = 0)
    (he : ∀ x, 0 < x → f x = |g' x| * h (g x)) : (Textbook.law f).map g = Textbook.law h := by
  refine Sampler.map_density measurableSet_Ioi measurableSet_Ioi hg hd hi him ?_ ?_ he
  · filter_upwards [Sampler.ae_ne' 0] with x hx h
    exact hf x (lt_of_le_of_ne (not_lt.1 h) hx)
  · filter_upwards [Sampler.ae_ne' 0] with x hx h
    exact hh x (lt_of_le_of_ne (not_lt.1 h) hx)

theorem measurable_fn (s : Step) : Measurable (stepFn s) := by
  cases s <;> simp only [stepFn] <;> first | fun_prop | exact continuous_abs.measurable

theorem inv_map {f h : ℝ → ℝ} (hf : ∀ x < 0, f x = 0) (hh : ∀ x < 0, h x = 0) (he : ∀ x, 0 < x → f x = 1 / x ^ 2 * h x⁻¹) :
    (Textbook.law f).map (stepFn .inv) = Textbook.law h := by
  refine pos_map (measurable_fn .inv) (g' := fun x => -(x ^ 2)⁻¹) (fun x hx => hasDerivAt_inv hx.ne') (fun x _ y _ h => inv_injective h)
    ?_ hf hh fun x hx => ?_
  · ext y
    constructor
    · rintro ⟨x, hx, rfl⟩; exact mem_Ioi.2 (inv_pos.2 (mem_Ioi.1 hx))
    · intro hy; exact ⟨y⁻¹, mem_Ioi.2 (inv_pos.2 (mem_Ioi.1 hy)), inv_inv y⟩
  · rw [he x hx, abs_neg, abs_of_pos (by positivity), stepFn, one_div]

theorem pow_map {d : ℝ} (hd : 0 < d) {f h : ℝ → ℝ} (hf : ∀ x < 0, f x = 0) (hh : ∀ x < 0, h x = 0)
    (he : ∀ x, 0 < x → f x = d * x ^ (d - 1) * h (x ^ d)) : (Textbook.law f).map (stepFn (.pow d)) = Textbook.law h := by
  refine pos_map (measurable_fn _) (g' := fun x => d * x ^ (d - 1)) (fun x hx => hasDerivAt_rpow_const (.inl hx.ne'))
    (fun x hx y hy h => (rpow_left_inj (le_of_lt hx) (le_of_lt hy) hd.ne').1 h) ?_ hf hh fun x hx => ?_
  · ext y
    constructor
    · rintro ⟨x, hx, rfl⟩; exact rpow_pos_of_pos hx d
    · intro hy
      refine ⟨y ^ (1 / d), rpow_pos_of_pos hy _, ?_⟩
      simp only [stepFn]
      rw [← rpow_mul (le_of_lt hy), one_div_mul_cancel hd.ne', rpow_one]
  · rw [he x hx, abs_of_pos (mul_pos hd (rpow_pos_of_pos hx _)), stepFn]

/-- an even function of a variable with an even density -/
theorem even_map {g g' φ h : ℝ → ℝ} (hg : Measurable g) (hev : ∀ x, g (-x) = g x) (hφ : ∀ x, φ (-x) = φ x) (hφ0 : ∀ x, 0 ≤ φ x)
    (hφm : Measurable φ) (hd : ∀ x, 0 < x → HasDerivAt g (g' x) x) (hi : InjOn g (Ioi 0)) (him : g '' Ioi 0 = Ioi 0)
    (hh0 : ∀ x, 0 ≤ h x) (hhm : Measurable h)
    (hh : ∀ x < 0, h x = 0) (he : ∀ x, 0 < x → φ x = |g' x| * (h (g x) / 2)) : (Textbook.law φ).map g = Textbook.law h := by
  have half : (Textbook.law ((Ioi (0 : ℝ)).indicator φ)).map g = Textbook.law fun x => h x / 2 := by
    refine pos_map hg hd hi him (fun x hx => indicator_of_notMem (not_lt.2 hx.le) _) (fun x hx => by rw [hh x hx, zero_div]) fun x hx => ?_
    rw [indicator_of_mem (mem_Ioi.2 hx), he x hx]
  have neg : Textbook.law ((Iio (0 : ℝ)).indicator φ) = (Textbook.law ((Ioi (0 : ℝ)).indicator φ)).map fun x => -x := by
    symm
    refine Sampler.map_density (U := univ) (V := univ) MeasurableSet.univ MeasurableSet.univ (by fun_prop) (g' := fun _ => -1)
      (fun x _ => hasDerivAt_neg x) neg_injective.injOn (by rw [image_univ, neg_surjective.range_eq]) (by simp) (by simp) fun x _ => ?_
    by_cases hx : 0 < x
    · rw [indicator_of_mem (mem_Ioi.2 hx), indicator_of_mem (mem_Iio.2 (neg_neg_of_pos hx)), hφ]; simp
    · rw [indicator_of_notMem (show x ∉ Ioi 0 from hx), indicator_of_notMem (by rw [mem_Iio]; linarith)]; simp
  have split : Textbook.law φ = Textbook.law ((Ioi (0 : ℝ)).indicator φ) + Textbook.law ((Iio (0 : ℝ)).indicator φ) := by
    rw [← Sampler.law_add (indicator_nonneg fun x _ => hφ0 x) (indicator_nonneg fun x _ => hφ0 x) (hφm.indicator measurableSet_Ioi)]
    refine Sampler.law_congr ?_
    filter_upwards [Sampler.ae_ne' 0] with x hx
    rcases lt_or_gt_of_ne hx with h | h
    · rw [indicator_of_notMem (show x ∉ Ioi 0 from not_lt.2 h.le), indicator_of_mem (show x ∈ Iio 0 from h), zero_add]
    · rw [indicator_of_mem (show x ∈ Ioi 0 from h), indicator_of_notMem (show x ∉ Iio 0 from not_lt.2 h.le), add_zero]
  rw [split, Measure.map_add _ _ hg, neg, Measure.map_map hg measurable_neg, show g ∘ (fun x => -x) = g from funext hev, half,
    ← Sampler.law_add (fun x => div_nonneg (hh0 x) two_pos.le) (fun x => div_nonneg (hh0 x) two_pos.le) (hhm.div_const 2)]
  congr 1
  ext x; ring

theorem square_map {φ h : ℝ → ℝ} (hφ : ∀ x, φ (-x) = φ x) (hφ0 : ∀ x, 0 ≤ φ x)
    (hφm : Measurable φ) (hh0 : ∀ x, 0 ≤ h x) (hhm : Measurable h) (hh : ∀ x < 0, h x = 0)
    (he : ∀ x, 0 < x → φ x = x * h (x ^ 2)) : (Textbook.law φ).map (stepFn .square) = Textbook.law h := by
  refine even_map (measurable_fn _) (fun x => by simp [stepFn]) hφ hφ0 hφm (g' := fun x => 2 * x) (fun x _ => ?_)
    (fun x hx y hy h => ?_) ?_ hh0 hhm hh fun x hx => ?_
  · simpa [stepFn] using hasDerivAt_pow 2 x
  · exact (pow_left_inj₀ (le_of_lt hx) (le_of_lt hy) two_ne_zero).1 h
  · ext y
    constructor
    · rintro ⟨x, hx, rfl⟩; exact mem_Ioi.2 (pow_pos (mem_Ioi.1 hx) 2)
    · intro hy; exact ⟨√y, sqrt_pos.2 hy, sq_sqrt (le_of_lt hy)⟩
  · rw [he x hx, abs_of_pos (by positivity), stepFn]; ring

theorem abs_map {φ h : ℝ → ℝ} (hφ : ∀ x, φ (-x) = φ x) (hφ0 : ∀ x, 0 ≤ φ x)
    (hφm : Measurable φ) (hh0 : ∀ x, 0 ≤ h x) (hhm : Measurable h) (hh : ∀ x < 0, h x = 0)
    (he : ∀ x, 0 < x → φ x = h x / 2) : (Textbook.law φ).map (stepFn .abs) = Textbook.law h := by
  refine even_map (measurable_fn _) (fun x => abs_neg x) hφ hφ0 hφm (g' := fun _ => 1) (fun x hx => hasDerivAt_abs_pos hx)
    (fun x hx y hy h => ?_) ?_ hh0 hhm hh fun x hx => ?_
  · simpa only [stepFn, abs_of_pos (mem_Ioi.1 hx), abs_of_pos (mem_Ioi.1 hy)] using h
  · ext y
    constructor
    · rintro ⟨x, hx, rfl⟩; exact mem_Ioi.2 (abs_pos.2 (ne_of_gt (mem_Ioi.1 hx)))
    · intro hy; exact ⟨y, hy, abs_of_pos hy⟩
  · simp only [stepFn]; rw [he x hx, abs_one, one_mul, abs_of_pos hx]

/-! ### densities of the positive distributions -/

theorem gamma_pdf {k r x : ℝ} (hx : 0 < x) : gammaPDFReal k r x = r ^ k / Gamma k * x ^ (k - 1) * exp (-(r * x)) := if_pos hx.le

theorem exp_pdf {r x : ℝ} (hx : 0 < x) : gammaPDFReal 1 r x = r * exp (-(r * x)) := by
  rw [gamma_pdf hx, Gamma_one, rpow_one, sub_self, rpow_zero]; ring

theorem gamma_neg {k r x : ℝ} (hx : x < 0) : gammaPDFReal k r x = 0 := if_neg (not_le.2 hx)

theorem exp_law (r : ℝ) : kindLaw (.exponential r) = Textbook.law (gammaPDFReal 1 r) := rfl
theorem gamma_law (k t : ℝ) : kindLaw (.gamma k t) = Textbook.law (gammaPDFReal k (1 / t)) := rfl
theorem chi_law (d : ℝ) : kindLaw (.chiSquare d) = Textbook.law (gammaPDFReal (d / 2) (1 / 2)) := rfl
theorem beta_law (a b : ℝ) : kindLaw (.beta a b) = Textbook.law (betaPDFReal a b) := rfl
theorem pareto_pdf (a x : ℝ) : kindLaw (.pareto a x) = Textbook.law (paretoPDFReal x a) := rfl

/-! ### exponentials and logarithms -/

theorem exp_exponential {al : ℝ} (h : 0 < al) :
    (kindLaw (.exponential al)).map (stepFn .exp) = kindLaw (.pareto al 1) := by
  rw [exp_law, pareto_pdf]
  refine Sampler.map_density (U := Ioi 0) (V := Ioi 1) measurableSet_Ioi measurableSet_Ioi (measurable_fn .exp)
    (g' := exp) (fun x _ => Real.hasDerivAt_exp x) exp_injective.injOn ?_ ?_ ?_ fun x hx => ?_
  · ext y
    constructor
    · rintro ⟨x, hx, rfl⟩; exact one_lt_exp_iff.2 hx
    · intro hy; exact ⟨log y, log_pos hy, exp_log (one_pos.trans hy)⟩
  · filter_upwards [Sampler.ae_ne' 0] with x hx h
    exact gamma_neg (lt_of_le_of_ne (not_lt.1 h) hx)
  · filter_upwards [Sampler.ae_ne' 1] with x hx h
    exact if_neg (not_le.2 (lt_of_le_of_ne (not_lt.1 h) hx))
  · rw [exp_pdf hx, abs_of_pos (exp_pos x), paretoPDFReal, if_pos (show 1 ≤ stepFn .exp x from one_le_exp (mem_Ioi.1 hx).le), one_rpow, mul_one, stepFn,
      ← exp_mul, mul_left_comm, ← exp_add]
    congr 2; ring

theorem log_pareto {al : ℝ} (h : 0 < al) :
    (kindLaw (.pareto al 1)).map (stepFn .log) = kindLaw (.exponential al) := by
  rw [← exp_exponential h, Measure.map_map (measurable_fn _) (measurable_fn _),
    show stepFn .log ∘ stepFn .exp = id from funext log_exp, Measure.map_id]

theorem neg_log_uniform {al : ℝ} (h : 0 < al) :
    ((kindLaw (.uniform 0 1)).map (stepFn .log)).map (stepFn (.shiftScale 0 (-1 / al))) = kindLaw (.exponential al) := by
  rw [Measure.map_map (measurable_fn _) (measurable_fn _), uniform_law one_pos, exp_law]
  refine Sampler.map_density (U := Ioo 0 1) (V := Ioi 0) measurableSet_Ioo measurableSet_Ioi ((measurable_fn _).comp (measurable_fn _))
    (g' := fun x => x⁻¹ * (-1 / al)) (fun x hx => ?_) ?_ ?_ ?_ ?_ fun x hx => ?_
  · exact ((hasDerivAt_log hx.1.ne').mul_const (-1 / al)).add_const 0
  · intro x hx y hy he
    simp only [Function.comp_apply, stepFn] at he
    exact log_injOn_pos hx.1 hy.1 (mul_right_cancel₀ (by simp [h.ne']) (add_right_cancel he))
  · ext y
    constructor
    · rintro ⟨x, hx, rfl⟩
      simp only [Function.comp_apply, stepFn, add_zero]
      exact mem_Ioi.2 (mul_pos_of_neg_of_neg (log_neg hx.1 hx.2) (div_neg_of_neg_of_pos (by norm_num) h))
    · intro hy
      refine ⟨exp (-(al * y)), ⟨exp_pos _, exp_lt_one_iff.2 (neg_neg_of_pos (mul_pos h hy))⟩, ?_⟩
      simp only [Function.comp_apply, stepFn, log_exp]
      field_simp; ring
  · filter_upwards [Sampler.ae_ne' 0, Sampler.ae_ne' 1] with x h0 h1 hx
    refine indicator_of_notMem (fun hx' => hx ⟨lt_of_le_of_ne hx'.1 h0.symm, lt_of_le_of_ne hx'.2 h1⟩) _
  · filter_upwards [Sampler.ae_ne' 0] with x hx h
    exact gamma_neg (lt_of_le_of_ne (not_lt.1 h) hx)
  · have hx0 := hx.1
    have hl : 0 < log x * (-1 / al) := mul_pos_of_neg_of_neg (log_neg hx.1 hx.2) (div_neg_of_neg_of_pos (by norm_num) h)
    simp only [Function.comp_apply, stepFn, add_zero]
    rw [indicator_of_mem (Ioo_subset_Icc_self hx), exp_pdf hl, abs_mul, abs_of_pos (inv_pos.2 hx0), neg_div, abs_neg,
      abs_of_pos (by positivity), show -(al * (log x * -(1 / al))) = log x by field_simp, exp_log hx0]
    field_simp; norm_num

/-! ### reciprocals -/

theorem inv_cauchy {g : ℝ} (hg : 0 < g) : (kindLaw (.cauchy g 0)).map (stepFn .inv) = kindLaw (.cauchy (1 / g) 0) := by
  rw [cauchy_pdf hg, cauchy_pdf (by positivity)]
  refine Sampler.map_density (U := {0}ᶜ) (V := {0}ᶜ) (measurableSet_singleton 0).compl (measurableSet_singleton 0).compl
    (measurable_fn .inv) (g' := fun x => -(x ^ 2)⁻¹) (fun x hx => hasDerivAt_inv hx) (fun x _ y _ h => inv_injective h) ?_ ?_ ?_ fun x hx => ?_
  · ext y
    constructor
    · rintro ⟨x, hx, rfl⟩; exact inv_ne_zero hx
    · intro hy; exact ⟨y⁻¹, inv_ne_zero hy, inv_inv y⟩
  · filter_upwards [Sampler.ae_ne' 0] with x hx h; exact absurd hx h
  · filter_upwards [Sampler.ae_ne' 0] with x hx h; exact absurd hx h
  · have hx0 : x ≠ 0 := hx
    have : 0 < x ^ 2 := by positivity
    rw [abs_neg, abs_of_pos (by positivity), stepFn]
    field_simp
    ring

theorem inv_weibull {k l : ℝ} (hl : 0 < l) : (kindLaw (.weibull k l)).map (stepFn .inv) = kindLaw (.frechet k (1 / l) 0) := by
  rw [kindLaw, kindLaw]
  refine inv_map (fun x hx => if_neg hx.le.not_gt) (fun x hx => if_neg hx.le.not_gt) fun x hx => ?_
  rw [Textbook.weibull, Textbook.frechet, if_pos hx, if_pos (inv_pos.2 hx), sub_zero,
    show x⁻¹ / (1 / l) = (x / l)⁻¹ by field_simp, inv_rpow (by positivity), inv_rpow (by positivity),
    ← rpow_neg (by positivity), ← rpow_neg (by positivity), neg_neg, show -(-1 - k) = k - 1 + 2 by ring,
    rpow_add (by positivity), rpow_two]
  field_simp

theorem inv_frechet {k s : ℝ} (hs : 0 < s) : (kindLaw (.frechet k s 0)).map (stepFn .inv) = kindLaw (.weibull k (1 / s)) := by
  have h := inv_weibull (k := k) (l := 1 / s) (by positivity)
  rw [one_div_one_div] at h
  rw [← h, Measure.map_map (measurable_fn _) (measurable_fn _),
    show stepFn .inv ∘ stepFn .inv = id from funext inv_inv, Measure.map_id]

theorem inv_logLogistic {k s : ℝ} (hs : 0 < s) :
    (kindLaw (.logLogistic k s)).map (stepFn .inv) = kindLaw (.logLogistic k (1 / s)) := by
  rw [kindLaw, kindLaw]
  refine inv_map (fun x hx => if_neg hx.le.not_gt) (fun x hx => if_neg hx.le.not_gt) fun x hx => ?_
  have h0 : 0 < x / s := by positivity
  rw [Textbook.logLogistic, Textbook.logLogistic, if_pos hx, if_pos (inv_pos.2 hx),
    show x⁻¹ / (1 / s) = (x / s)⁻¹ by field_simp, inv_rpow h0.le, inv_rpow h0.le]
  have e1 : (x / s) ^ (k - 1) = (x / s) ^ k / (x / s) := by rw [rpow_sub h0, rpow_one]
  rw [e1]
  have := rpow_pos_of_pos h0 k
  have e2 : 1 + ((x / s) ^ k)⁻¹ = (1 + (x / s) ^ k) / (x / s) ^ k := by field_simp; ring
  rw [e2]
  generalize (x / s) ^ k = y at *
  have : 0 < 1 + y := by positivity
  field_simp

theorem inv_fisher {a b : ℝ} (ha : 0 < a) (hb : 0 < b) :
    (kindLaw (.fDistr a b)).map (stepFn .inv) = kindLaw (.fDistr b a) := by
  rw [kindLaw, kindLaw]
  refine inv_map (fun x hx => if_neg hx.le.not_gt) (fun x hx => if_neg hx.le.not_gt) fun x hx => ?_
  rw [Textbook.fisher, Textbook.fisher, if_pos hx, if_pos (inv_pos.2 hx)]
  have e : (b * x⁻¹) ^ b * a ^ a / (b * x⁻¹ + a) ^ (b + a) = (a * x) ^ a * b ^ b / (a * x + b) ^ (a + b) := by
    rw [show b * x⁻¹ + a = (a * x + b) / x by field_simp; ring, div_rpow (by positivity) hx.le, mul_rpow hb.le (by positivity),
      inv_rpow hx.le, mul_rpow ha.le hx.le, add_comm b a, rpow_add hx]
    have := (rpow_pos_of_pos hx a).ne'
    have := (rpow_pos_of_pos hx b).ne'
    have : (a * x + b) ^ (a + b) ≠ 0 := (rpow_pos_of_pos (by positivity) _).ne'
    field_simp
  have e2 : ProbabilityTheory.beta (b / 2) (a / 2) = ProbabilityTheory.beta (a / 2) (b / 2) := by
    rw [ProbabilityTheory.beta, ProbabilityTheory.beta, mul_comm, add_comm (b / 2)]
  have := (beta_pos (half_pos ha) (half_pos hb)).ne'
  rw [e, e2]
  field_simp

theorem inv_levy {c : ℝ} (hc : 0 < c) : (kindLaw (.levy c 0)).map (stepFn .inv) = kindLaw (.gamma (1 / 2) (2 / c)) := by
  rw [gamma_law, kindLaw]
  refine inv_map (fun x hx => if_neg hx.le.not_gt) (fun x hx => gamma_neg hx) fun x hx => ?_
  rw [Textbook.levy, if_pos hx, gamma_pdf (inv_pos.2 hx), Gamma_one_half_eq, sub_zero, inv_rpow hx.le, ← rpow_neg hx.le,
    show 1 / (2 / c) = c / 2 by field_simp, ← sqrt_eq_rpow, show -(1 / 2 - 1 : ℝ) = 2 - 3 / 2 by norm_num, rpow_sub hx, rpow_two,
    show c / (2 * π) = c / 2 / π by field_simp, sqrt_div (by positivity), show -(c / 2 * x⁻¹) = -c / (2 * x) by field_simp]
  have := (rpow_pos_of_pos hx (3 / 2)).ne'
  field_simp

/-! ### powers -/

theorem pow_weibull {k l d : ℝ} (hl : 0 < l) (hd : 0 < d) :
    (kindLaw (.weibull k l)).map (stepFn (.pow d)) = kindLaw (.weibull (k / d) (l ^ d)) := by
  rw [kindLaw, kindLaw]
  refine pow_map hd (fun x hx => if_neg hx.le.not_gt) (fun x hx => if_neg hx.le.not_gt) fun x hx => ?_
  have h0 : 0 < x / l := by positivity
  rw [Textbook.weibull, Textbook.weibull, if_pos hx, if_pos (rpow_pos_of_pos hx d), ← div_rpow hx.le hl.le, ← rpow_mul h0.le,
    ← rpow_mul h0.le, mul_div_cancel₀ k hd.ne', show d * (k / d - 1) = (k - 1) - (d - 1) by field_simp; ring, rpow_sub h0 (k - 1),
    div_rpow hx.le hl.le (d - 1), rpow_sub hl d 1, rpow_one]
  have := (rpow_pos_of_pos hx (d - 1)).ne'
  have := (rpow_pos_of_pos hl d).ne'
  field_simp

theorem pow_logLogistic {k s d : ℝ} (hs : 0 < s) (hd : 0 < d) :
    (kindLaw (.logLogistic k s)).map (stepFn (.pow d)) = kindLaw (.logLogistic (k / d) (s ^ d)) := by
  rw [kindLaw, kindLaw]
  refine pow_map hd (fun x hx => if_neg hx.le.not_gt) (fun x hx => if_neg hx.le.not_gt) fun x hx => ?_
  have h0 : 0 < x / s := by positivity
  rw [Textbook.logLogistic, Textbook.logLogistic, if_pos hx, if_pos (rpow_pos_of_pos hx d), ← div_rpow hx.le hs.le, ← rpow_mul h0.le,
    ← rpow_mul h0.le, mul_div_cancel₀ k hd.ne', show d * (k / d - 1) = (k - 1) - (d - 1) by field_simp; ring, rpow_sub h0 (k - 1),
    div_rpow hx.le hs.le (d - 1), rpow_sub hs d 1, rpow_one]
  have := (rpow_pos_of_pos hx (d - 1)).ne'
  have := (rpow_pos_of_pos hs d).ne'
  field_simp

theorem weibull_one {r : ℝ} (hr : 0 < r) : kindLaw (.exponential r) = kindLaw (.weibull 1 (1 / r)) := by
  rw [exp_law, kindLaw]
  refine Sampler.law_congr ?_
  filter_upwards [Sampler.ae_ne' 0] with x hx
  rcases lt_or_gt_of_ne hx with h | h
  · rw [gamma_neg h, Textbook.weibull, if_neg h.le.not_gt]
  · rw [exp_pdf h, Textbook.weibull, if_pos h, sub_self, rpow_zero, rpow_one]
    field_simp

theorem pow_exponential {r d : ℝ} (hr : 0 < r) (hd : 0 < d) :
    (kindLaw (.exponential r)).map (stepFn (.pow d)) = kindLaw (.weibull (1 / d) ((1 / r) ^ d)) := by
  rw [weibull_one hr, pow_weibull (by positivity) hd]

theorem pow_pareto {al xm d : ℝ} (hx : 0 < xm) (hd : 0 < d) :
    (kindLaw (.pareto al xm)).map (stepFn (.pow d)) = kindLaw (.pareto (al / d) (xm ^ d)) := by
  rw [pareto_pdf, pareto_pdf]
  refine pow_map hd (fun x h => if_neg (not_le.2 (h.trans hx))) (fun x h => if_neg (not_le.2 (h.trans (rpow_pos_of_pos hx d)))) fun x h => ?_
  rw [paretoPDFReal, paretoPDFReal]
  by_cases h' : xm ≤ x
  · rw [if_pos h', if_pos (rpow_le_rpow hx.le h' hd.le), ← rpow_mul hx.le, ← rpow_mul h.le, mul_div_cancel₀ al hd.ne',
      show d * -(al / d + 1) = -(al + 1) - (d - 1) by field_simp; ring, rpow_sub h (-(al + 1))]
    have := (rpow_pos_of_pos h (d - 1)).ne'
    generalize x ^ (d - 1) = y at *
    field_simp
  · rw [if_neg h', if_neg, mul_zero]
    rw [rpow_le_rpow_iff hx.le h.le hd]; exact h'

theorem uniform_open : kindLaw (.uniform 0 1) = Textbook.law ((Ioo (0 : ℝ) 1).indicator 1) := by
  rw [uniform_law one_pos]
  refine Sampler.law_congr ?_
  filter_upwards [Sampler.ae_ne' 0, Sampler.ae_ne' 1] with x h0 h1
  by_cases h : x ∈ Ioo (0 : ℝ) 1
  · rw [indicator_of_mem h, indicator_of_mem (Ioo_subset_Icc_self h)]; simp
  · rw [indicator_of_notMem h, indicator_of_notMem]
    exact fun h' => h ⟨lt_of_le_of_ne h'.1 h0.symm, lt_of_le_of_ne h'.2 h1⟩

theorem beta_one_right {a : ℝ} (ha : 0 < a) : ProbabilityTheory.beta a 1 = 1 / a := by
  rw [ProbabilityTheory.beta, Gamma_one, Gamma_add_one ha.ne']
  have := (Gamma_pos_of_pos ha).ne'
  field_simp

theorem pow_uniform {a : ℝ} (ha : 0 < a) :
    (kindLaw (.uniform 0 1)).map (stepFn (.pow (1 / a))) = kindLaw (.beta a 1) := by
  rw [uniform_open, beta_law]
  refine pow_map (by positivity) (fun x h => indicator_of_notMem (fun h' => h.not_gt h'.1) _)
    (fun x h => if_neg fun h' => h.not_gt h'.1) fun x h => ?_
  rw [betaPDFReal, beta_one_right ha, sub_self, rpow_zero]
  by_cases h1 : x < 1
  · rw [indicator_of_mem (show x ∈ Ioo (0 : ℝ) 1 from ⟨h, h1⟩), if_pos ⟨rpow_pos_of_pos h _, rpow_lt_one h.le h1 (by positivity)⟩,
      Pi.one_apply, ← rpow_mul h.le, one_div_one_div, mul_one]
    have e : x ^ (1 / a - 1) * x ^ (1 / a * (a - 1)) = 1 := by
      rw [← rpow_add h, show 1 / a - 1 + 1 / a * (a - 1) = 0 by field_simp; ring, rpow_zero]
    calc (1 : ℝ) = x ^ (1 / a - 1) * x ^ (1 / a * (a - 1)) := e.symm
      _ = _ := by field_simp
  · rw [indicator_of_notMem (fun h' => h1 h'.2), if_neg, mul_zero]
    rintro ⟨-, h2⟩
    exact absurd h2 (not_lt.2 (one_le_rpow (not_lt.1 h1) (by positivity)))

theorem inv_pareto {a : ℝ} (ha : 0 < a) : (kindLaw (.pareto a 1)).map (stepFn .inv) = kindLaw (.beta a 1) := by
  rw [pareto_pdf, beta_law]
  refine Sampler.map_density (U := Ioi 1) (V := Ioo 0 1) measurableSet_Ioi measurableSet_Ioo
    (measurable_fn .inv) (g' := fun x => -(x ^ 2)⁻¹) (fun x hx => hasDerivAt_inv (one_pos.trans hx).ne')
    (fun x _ y _ h => inv_injective h) ?_ ?_ ?_ fun x hx => ?_
  · ext y
    constructor
    · rintro ⟨x, hx, rfl⟩; exact ⟨inv_pos.2 (one_pos.trans hx), inv_lt_one_of_one_lt₀ hx⟩
    · intro hy; exact ⟨y⁻¹, mem_Ioi.2 ((one_lt_inv₀ hy.1).2 hy.2), inv_inv y⟩
  · filter_upwards [Sampler.ae_ne' 1] with x hx h
    exact if_neg (not_le.2 (lt_of_le_of_ne (not_lt.1 h) hx))
  · exact Filter.Eventually.of_forall fun x hx => if_neg hx
  · have h1 : 1 < x := hx
    have h0 : 0 < x := one_pos.trans hx
    rw [paretoPDFReal, if_pos h1.le, betaPDFReal, if_pos (show 0 < stepFn .inv x ∧ stepFn .inv x < 1 from
      ⟨inv_pos.2 h0, inv_lt_one_of_one_lt₀ h1⟩), beta_one_right ha, sub_self, rpow_zero, abs_neg, abs_of_pos (by positivity), one_rpow, stepFn,
      inv_rpow h0.le, ← rpow_neg h0.le, one_div_one_div, show -(a + 1) = -(a - 1) - 2 by ring, rpow_sub h0, rpow_two]
    field_simp

/-- `1 - X` -/
theorem beta_flip {a b : ℝ} : (kindLaw (.beta a b)).map (stepFn (.shiftScale 1 (-1))) = kindLaw (.beta b a) := by
  rw [beta_law, beta_law, aff_neg 1 (by norm_num)]
  congr 1
  ext x
  have e2 : ProbabilityTheory.beta a b = ProbabilityTheory.beta b a := by
    rw [ProbabilityTheory.beta, ProbabilityTheory.beta, mul_comm, add_comm]
  rw [betaPDFReal, betaPDFReal, show (x - 1) / (-1) = 1 - x by ring, sub_sub_cancel, e2]
  by_cases h : 0 < x ∧ x < 1
  · rw [if_pos h, if_pos ⟨by linarith [h.2], by linarith [h.1]⟩]; ring
  · rw [if_neg h, if_neg, mul_zero]
    exact fun h' => h ⟨by linarith [h'.2], by linarith [h'.1]⟩

/-! ### even functions -/

theorem square_normal {s : ℝ} (hs : 0 < s) :
    (kindLaw (.normal 0 s)).map (stepFn .square) = kindLaw (.gamma (1 / 2) (2 * s ^ 2)) := by
  rw [kindLaw, gamma_law, Sampler.gaussian_law 0 hs]
  refine square_map (fun x => ?_) (gaussianPDFReal_nonneg _ _) (measurable_gaussianPDFReal _ _)
    (gammaPDFReal_nonneg (by norm_num) (by positivity)) (measurable_gammaPDFReal _ _) (fun x hx => gamma_neg hx) fun x hx => ?_
  · rw [Sampler.gaussianPDF_apply hs, Sampler.gaussianPDF_apply hs, neg_sq]
  · rw [Sampler.gaussianPDF_apply hs, gamma_pdf (by positivity), Gamma_one_half_eq, ← sqrt_eq_rpow, sqrt_div one_pos.le, sqrt_one,
      mul_comm 2 (s ^ 2), sqrt_mul (sq_nonneg s), sqrt_sq hs.le, sqrt_mul two_pos.le, ← rpow_natCast x 2, ← rpow_mul hx.le,
      show ((2 : ℕ) : ℝ) * (1 / 2 - 1) = -1 by norm_num, rpow_neg_one, rpow_natCast, show 1 / (s ^ 2 * 2) * x ^ 2 = x ^ 2 / (2 * s ^ 2) by
        field_simp]
    field_simp

theorem abs_laplace {l : ℝ} (hl : 0 < l) : (kindLaw (.laplace l 0)).map (stepFn .abs) = kindLaw (.exponential (1 / l)) := by
  rw [exp_law, kindLaw]
  refine abs_map (fun x => ?_) (fun x => ?_) ?_ (gammaPDFReal_nonneg one_pos (by positivity)) (measurable_gammaPDFReal _ _)
    (fun x hx => gamma_neg hx) fun x hx => ?_
  · simp [Textbook.laplace]
  · rw [Textbook.laplace]; positivity
  · have : Continuous (Textbook.laplace l 0) := by unfold Textbook.laplace; fun_prop
    exact this.measurable
  · rw [Textbook.laplace, exp_pdf hx, sub_zero, abs_of_pos hx, show 1 / l * x = x / l by ring]
    field_simp

theorem square_student {v : ℝ} (hv : 0 < v) : (kindLaw (.studentT v)).map (stepFn .square) = kindLaw (.fDistr 1 v) := by
  have h1 : ∀ x : ℝ, 0 < 1 + x ^ 2 / v := fun x => by positivity
  rw [kindLaw, kindLaw]
  refine square_map (fun x => ?_) (fun x => ?_) ?_ (fun x => ?_) ?_ (fun x hx => if_neg hx.le.not_gt) fun x hx => ?_
  · simp [Textbook.studentT]
  · have := Gamma_pos_of_pos (s := (v + 1) / 2) (by positivity)
    have := Gamma_pos_of_pos (half_pos hv)
    have := rpow_pos_of_pos (h1 x) (-((v + 1) / 2))
    rw [Textbook.studentT]; positivity
  · unfold Textbook.studentT; fun_prop
  · rw [Textbook.fisher]
    split_ifs with h
    · have := beta_pos (show (0 : ℝ) < 1 / 2 by norm_num) (half_pos hv)
      positivity
    · exact le_rfl
  · unfold Textbook.fisher
    exact Measurable.ite measurableSet_Ioi (by fun_prop) measurable_const
  · have hG := Gamma_pos_of_pos (half_pos hv)
    have hG' := Gamma_pos_of_pos (s := (v + 1) / 2) (by positivity)
    have hq : 0 < x ^ 2 + v := by positivity
    rw [Textbook.studentT, Textbook.fisher, if_pos (by positivity), ProbabilityTheory.beta, Gamma_one_half_eq, one_mul, rpow_one,
      show (1 : ℝ) / 2 + v / 2 = (v + 1) / 2 by ring, mul_div_assoc, sqrt_mul (sq_nonneg x), sqrt_sq hx.le, sqrt_div (rpow_nonneg hv.le _),
      sqrt_mul hv.le, sqrt_eq_rpow (v ^ v), sqrt_eq_rpow ((x ^ 2 + v) ^ (1 + v)), ← rpow_mul hv.le, ← rpow_mul hq.le,
      show 1 + x ^ 2 / v = (x ^ 2 + v) / v by field_simp; ring, div_rpow hq.le hv.le, rpow_neg hq.le, rpow_neg hv.le, sqrt_eq_rpow v,
      show (v + 1) / 2 = v * (1 / 2) + 1 / 2 by ring, show (1 + v) * (1 / 2) = v * (1 / 2) + 1 / 2 by ring, rpow_add hv, rpow_add hq]
    rw [show (v + 1) / 2 = v * (1 / 2) + 1 / 2 by ring] at hG'
    have := (rpow_pos_of_pos hv (v * (1 / 2))).ne'
    have := (rpow_pos_of_pos hv (1 / 2)).ne'
    have := (rpow_pos_of_pos hq (v * (1 / 2))).ne'
    have := (rpow_pos_of_pos hq (1 / 2)).ne'
    have := hG.ne'
    have := hG'.ne'
    field_simp

theorem atan_cauchy : (kindLaw (.cauchy 1 0)).map (stepFn .atan) = kindLaw (.uniform (-(π / 2)) (π / 2)) := by
  rw [cauchy_pdf one_pos, uniform_law (by linarith [pi_pos])]
  refine Sampler.map_density (U := univ) (V := Ioo (-(π / 2)) (π / 2)) MeasurableSet.univ measurableSet_Ioo (measurable_fn .atan)
    (g' := fun x => 1 / (1 + x ^ 2)) (fun x _ => hasDerivAt_arctan x) arctan_injective.injOn ?_ (by simp) ?_ fun x _ => ?_
  · rw [image_univ]; exact range_arctan
  · filter_upwards [Sampler.ae_ne' (-(π / 2)), Sampler.ae_ne' (π / 2)] with x h0 h1 hx
    refine indicator_of_notMem (fun hx' => hx ⟨lt_of_le_of_ne hx'.1 h0.symm, lt_of_le_of_ne hx'.2 h1⟩) _
  · have : 0 < 1 + x ^ 2 := by positivity
    rw [indicator_of_mem (show stepFn .atan x ∈ Icc (-(π / 2)) (π / 2) from ⟨(neg_pi_div_two_lt_arctan x).le, (arctan_lt_pi_div_two x).le⟩),
      abs_of_pos (by positivity)]
    field_simp
    ring

/-! ### coincidences -/

theorem chi_gamma (d : ℝ) : kindLaw (.chiSquare d) = kindLaw (.gamma (d / 2) 2) := rfl

theorem gamma_one {t : ℝ} : kindLaw (.gamma 1 t) = kindLaw (.exponential (1 / t)) := rfl

theorem student_one : kindLaw (.studentT 1) = kindLaw (.cauchy 1 0) := by
  rw [cauchy_pdf one_pos, kindLaw]
  congr 1
  ext x
  have h : 0 < 1 + x ^ 2 := by positivity
  rw [Textbook.studentT, one_mul, Gamma_one_half_eq, mul_self_sqrt pi_pos.le]
  norm_num
  rw [rpow_neg_one, add_comm]

theorem beta_one : kindLaw (.beta 1 1) = kindLaw (.uniform 0 1) := by
  rw [uniform_open, beta_law]
  congr 1
  ext x
  rw [betaPDFReal, beta_one_right one_pos]
  by_cases h : x ∈ Ioo (0 : ℝ) 1
  · rw [indicator_of_mem h, if_pos (show 0 < x ∧ x < 1 from h)]; simp
  · rw [indicator_of_notMem h, if_neg (show ¬(0 < x ∧ x < 1) from h)]

theorem trapezoid_uniform {a b : ℝ} (h : a < b) : kindLaw (.trapezoidal a a b b) = kindLaw (.uniform a b) := by
  rw [uniform_law h, kindLaw]
  refine Sampler.law_congr ?_
  filter_upwards [Sampler.ae_ne' b] with x hx
  have h0 := sub_pos.2 h
  rw [Textbook.trapezoid]
  by_cases h1 : x < a
  · rw [if_pos h1, indicator_of_notMem (fun h' => h1.not_ge h'.1), mul_zero]
  · rw [if_neg h1, if_neg h1]
    by_cases h2 : x < b
    · rw [if_pos h2, indicator_of_mem (show x ∈ Icc a b from ⟨not_lt.1 h1, h2.le⟩), mul_one, show b + b - (a + a) = 2 * (b - a) by ring]
      field_simp
    · rw [if_neg h2, if_neg h2, mul_zero, indicator_of_notMem]
      exact fun h' => h2 (lt_of_le_of_ne h'.2 hx)

end Pacal.Identity
