import Verif.Copula.PropLemmas
import Verif.Depend.Model
import Mathlib.Analysis.Convex.Deriv
import Mathlib.MeasureTheory.Function.JacobianOneDim
import Mathlib.MeasureTheory.Integral.IntegralEqImproper
import Mathlib.MeasureTheory.Measure.Haar.OfBasis
import Mathlib.MeasureTheory.Integral.Prod

/-!
Helper lemmas: Kendall's tau of an Archimedean copula, by the change of variables `s = φ(u)`, `t = φ(v)`.
-/

open MeasureTheory Set Filter Topology

namespace Pacal.Depend

open Pacal.Copula

variable {g : Gen}

theorem inv_deriv (hg : g.Regular) {s : ℝ} (hs : 0 < s) : HasDerivAt g.inv (deriv g.inv s) s := by
  have := hg.diff_inv 0 s hs
  rw [iteratedDeriv_zero] at this
  exact this.hasDerivAt

theorem inv_deriv2 (hg : g.Regular) {s : ℝ} (hs : 0 < s) : HasDerivAt (deriv g.inv) (iteratedDeriv 2 g.inv s) s := by
  have := hg.diff_inv 1 s hs
  rw [iteratedDeriv_one] at this
  rw [iteratedDeriv_succ, iteratedDeriv_one]
  exact this.hasDerivAt

theorem inv_lt_one (hg : g.Regular) {s : ℝ} (hs : 0 < s) : g.inv s < 1 := by
  refine lt_of_le_of_ne (hg.gen.range s hs.le).2 fun h => ?_
  have := hg.gen.right_inv s hs.le
  rw [h, hg.gen.one] at this
  exact hs.ne this

theorem fi_deriv_mul (hg : g.Regular) {s : ℝ} (hs : 0 < s) : deriv g.fi (g.inv s) * deriv g.inv s = 1 := by
  have h1 := (hg.diff_fi _ (hg.gen.range s hs.le).1 (inv_lt_one hg hs)).hasDerivAt
  have h2 := h1.comp s (inv_deriv hg hs)
  have h3 : HasDerivAt (g.fi ∘ g.inv) 1 s := by
    refine (hasDerivAt_id s).congr_of_eventuallyEq ?_
    filter_upwards [Ioi_mem_nhds hs] with t ht
    exact hg.gen.right_inv t (mem_Ioi.1 ht).le
  exact h2.unique h3

theorem inv_deriv_neg (hg : g.Regular) {s : ℝ} (hs : 0 < s) : deriv g.inv s < 0 := by
  refine lt_of_le_of_ne ?_ (right_ne_zero_of_mul_eq_one (fi_deriv_mul hg hs))
  have hanti : AntitoneOn g.inv (Ioi 0) := fun x hx y _ hxy => hg.gen.inv_anti (mem_Ioi.1 hx).le hxy
  have := hanti.derivWithin_nonpos (x := s)
  rwa [derivWithin_of_isOpen isOpen_Ioi (mem_Ioi.2 hs)] at this

theorem fi_deriv (hg : g.Regular) {t : ℝ} (h0 : 0 < t) (h1 : t < 1) : deriv g.fi t = (deriv g.inv (g.fi t))⁻¹ := by
  have hp := hg.gen.pos h0 h1
  have := fi_deriv_mul hg hp
  rw [hg.gen.left_inv t h0 h1.le] at this
  exact eq_inv_of_mul_eq_one_left this

theorem fi_deriv_neg (hg : g.Regular) {t : ℝ} (h0 : 0 < t) (h1 : t < 1) : deriv g.fi t < 0 := by
  rw [fi_deriv hg h0 h1]
  exact inv_lt_zero.2 (inv_deriv_neg hg (hg.gen.pos h0 h1))

theorem inv_second_nonneg (hg : g.Regular) {s : ℝ} (hs : 0 < s) : 0 ≤ iteratedDeriv 2 g.inv s := by
  have hm : MonotoneOn (deriv g.inv) (Ioi 0) :=
    ((hg.gen.inv_convex.subset Ioi_subset_Ici_self (convex_Ioi 0)).monotoneOn_deriv
      fun x hx => (inv_deriv hg (mem_Ioi.1 hx)).differentiableAt)
  have := hm.derivWithin_nonneg (x := s)
  rw [derivWithin_of_isOpen isOpen_Ioi (mem_Ioi.2 hs)] at this
  rwa [← (inv_deriv2 hg hs).deriv]

theorem inv_tendsto (hg : g.Regular) : Tendsto g.inv atTop (𝓝 0) := by
  refine tendsto_order.2 ⟨fun a ha => ?_, fun a ha => ?_⟩
  · filter_upwards [eventually_ge_atTop 0] with s hs using ha.trans (hg.gen.range s hs).1
  · have hb : 0 < min (a / 2) (1 / 2) := lt_min (by linarith) (by norm_num)
    have hb1 : min (a / 2) (1 / 2) ≤ 1 := (min_le_right _ _).trans (by norm_num)
    filter_upwards [eventually_ge_atTop (max 0 (g.fi (min (a / 2) (1 / 2))))] with s hs
    have := (hg.gen.ge_iff hb hb1 ((le_max_left _ _).trans hs)).2 ((le_max_right _ _).trans hs)
    linarith [min_le_left (a / 2) (1 / 2 : ℝ)]

theorem inv_deriv_bound (hg : g.Regular) {s : ℝ} (hs : 0 < s) : -(deriv g.inv s) ≤ 2 / s := by
  have hc := hg.gen.inv_convex.subset Ioi_subset_Ici_self (convex_Ioi 0)
  have := hc.slope_le_deriv (x := s / 2) (y := s) (mem_Ioi.2 (by linarith)) (mem_Ioi.2 hs) (by linarith) (inv_deriv hg hs).differentiableAt
  rw [slope_def_field, div_le_iff₀ (by linarith)] at this
  rw [le_div_iff₀ hs]
  have h1 := (hg.gen.range (s / 2) (by linarith)).2
  have h2 := (hg.gen.range s hs.le).1
  nlinarith

theorem inv_deriv_tendsto (hg : g.Regular) : Tendsto (fun s => -(deriv g.inv s)) atTop (𝓝 0) := by
  have hz : Tendsto (fun s : ℝ => 2 / s) atTop (𝓝 0) := tendsto_const_nhds.div_atTop tendsto_id
  refine tendsto_of_tendsto_of_tendsto_of_le_of_le' tendsto_const_nhds hz ?_ ?_
  · filter_upwards [eventually_gt_atTop 0] with s hs using (neg_pos.2 (inv_deriv_neg hg hs)).le
  · filter_upwards [eventually_gt_atTop 0] with s hs using inv_deriv_bound hg hs

/-- the images under the generator and its inverse -/
theorem fi_image (hg : g.Regular) {u : ℝ} (h0 : 0 < u) (h1 : u ≤ 1) : g.fi '' Ioo 0 u = Ioi (g.fi u) := by
  ext s
  constructor
  · rintro ⟨t, ⟨ht0, htu⟩, rfl⟩
    exact hg.gen.anti ⟨ht0, htu.le.trans h1⟩ ⟨h0, h1⟩ htu
  · intro hs
    have hs0 : 0 ≤ s := (hg.gen.nonneg h0 h1).trans (mem_Ioi.1 hs).le
    refine ⟨g.inv s, ⟨(hg.gen.range s hs0).1, ?_⟩, hg.gen.right_inv s hs0⟩
    exact not_le.1 fun h => absurd ((hg.gen.le_iff h0 h1 hs0).1 h) (not_le.2 (mem_Ioi.1 hs))

theorem fi_inj (hg : g.Regular) {u : ℝ} (h1 : u ≤ 1) : InjOn g.fi (Ioo 0 u) :=
  fun _ hx _ hy h => hg.gen.anti.injOn ⟨hx.1, hx.2.le.trans h1⟩ ⟨hy.1, hy.2.le.trans h1⟩ h

theorem fi_subst (hg : g.Regular) {u : ℝ} (h0 : 0 < u) (h1 : u ≤ 1) (F : ℝ → ENNReal) :
    ∫⁻ s in Ioi (g.fi u), F s = ∫⁻ x in Ioo 0 u, ENNReal.ofReal |deriv g.fi x| * F (g.fi x) := by
  rw [← fi_image hg h0 h1]
  exact lintegral_image_eq_lintegral_abs_deriv_mul measurableSet_Ioo
    (fun x hx => (hg.diff_fi x hx.1 (hx.2.trans_le h1)).hasDerivAt.hasDerivWithinAt) (fi_inj hg h1) F

theorem inv_image (hg : g.Regular) : g.inv '' Ioi 0 = Ioo 0 1 := by
  ext t
  constructor
  · rintro ⟨s, hs, rfl⟩
    exact ⟨(hg.gen.range s (mem_Ioi.1 hs).le).1, inv_lt_one hg (mem_Ioi.1 hs)⟩
  · rintro ⟨h0, h1⟩
    exact ⟨g.fi t, hg.gen.pos h0 h1, hg.gen.left_inv t h0 h1.le⟩

theorem inv_subst (hg : g.Regular) (F : ℝ → ENNReal) :
    ∫⁻ t in Ioo 0 1, F t = ∫⁻ w in Ioi 0, ENNReal.ofReal |deriv g.inv w| * F (g.inv w) := by
  rw [← inv_image hg]
  refine lintegral_image_eq_lintegral_abs_deriv_mul measurableSet_Ioi
    (fun x hx => (inv_deriv hg (mem_Ioi.1 hx)).hasDerivWithinAt) (fun x hx y hy h => ?_) F
  rw [← hg.gen.right_inv x (mem_Ioi.1 hx).le, h, hg.gen.right_inv y (mem_Ioi.1 hy).le]

/-- the fundamental theorem on a half-line, for a decreasing function with limit 0 -/
theorem lint_Ioi {F F' : ℝ → ℝ} {a : ℝ} (hc : ContinuousWithinAt F (Ici a) a) (hF : ∀ x ∈ Ioi a, HasDerivAt F (-(F' x)) x)
    (h0 : ∀ x ∈ Ioi a, 0 ≤ F' x) (hl : Tendsto F atTop (𝓝 0)) : ∫⁻ x in Ioi a, ENNReal.ofReal (F' x) = ENNReal.ofReal (F a) := by
  have hd : ∀ x ∈ Ioi a, HasDerivAt (fun x => -(F x)) (F' x) x := fun x hx => by
    have := (hF x hx).neg
    rw [neg_neg] at this
    exact this
  have ht : Tendsto (fun x => -(F x)) atTop (𝓝 0) := by simpa using hl.neg
  have e := integral_Ioi_of_hasDerivAt_of_nonneg hc.neg hd h0 ht
  have hi := integrableOn_Ioi_deriv_of_nonneg hc.neg hd h0 ht
  rw [← ofReal_integral_eq_lintegral_ofReal hi ((ae_restrict_mem measurableSet_Ioi).mono h0), e]
  simp

theorem lint_shift (K : ℝ → ENNReal) (a t : ℝ) : ∫⁻ s in Ioi a, K (s + t) = ∫⁻ w in Ioi (a + t), K w := by
  have h := (measurePreserving_add_right (volume : Measure ℝ) t).setLIntegral_comp_preimage_emb
    (MeasurableEquiv.addRight t).measurableEmbedding K (Ioi (a + t))
  rw [← h]
  congr 2
  ext s
  simp

/-- the double integral of a function of the sum -/
theorem double_eq {K : ℝ → ENNReal} (hK : Measurable K) :
    ∫⁻ t in Ioi (0 : ℝ), ∫⁻ s in Ioi (0 : ℝ), K (s + t) = ∫⁻ w in Ioi (0 : ℝ), ENNReal.ofReal w * K w := by
  have e1 : ∀ t ∈ Ioi (0 : ℝ), ∫⁻ s in Ioi (0 : ℝ), K (s + t) = ∫⁻ w in Ioi (0 : ℝ), (Ioi t).indicator K w := by
    intro t ht
    rw [lint_shift, zero_add, lintegral_indicator measurableSet_Ioi, Measure.restrict_restrict measurableSet_Ioi,
      inter_eq_left.2 (Ioi_subset_Ioi (mem_Ioi.1 ht).le)]
  rw [setLIntegral_congr_fun measurableSet_Ioi e1, lintegral_lintegral_swap]
  · refine setLIntegral_congr_fun measurableSet_Ioi fun w hw => ?_
    have e2 : ∀ t : ℝ, (Ioi t).indicator K w = (Iio w).indicator (fun _ => K w) t := by
      intro t
      by_cases h : t < w
      · rw [indicator_of_mem (mem_Ioi.2 h), indicator_of_mem (mem_Iio.2 h)]
      · rw [indicator_of_notMem (fun h' => h (mem_Ioi.1 h')), indicator_of_notMem (fun h' => h (mem_Iio.1 h'))]
    simp only [e2]
    rw [lintegral_indicator measurableSet_Iio, lintegral_const, Measure.restrict_restrict measurableSet_Iio,
      Measure.restrict_apply MeasurableSet.univ, univ_inter, mul_comm, Iio_inter_Ioi, Real.volume_Ioo, sub_zero]
  · have : Measurable fun z : ℝ × ℝ => (Ioi z.1).indicator K z.2 := by
      have hS : MeasurableSet {z : ℝ × ℝ | z.1 < z.2} := measurableSet_lt measurable_fst measurable_snd
      exact (hK.comp measurable_snd).indicator hS
    exact this.aemeasurable

/-- the left end: the inverse generator is continuous at 0 -/
theorem inv_cont_zero (hg : g.Regular) : ContinuousWithinAt g.inv (Ici 0) 0 := by
  unfold ContinuousWithinAt
  rw [hg.gen.inv_zero]
  refine tendsto_order.2 ⟨fun a ha => ?_, fun a ha => ?_⟩
  · have hb : 0 < max ((a + 1) / 2) (1 / 2) := lt_max_of_lt_right (by norm_num)
    have hb1 : max ((a + 1) / 2) (1 / 2) < 1 := max_lt (by linarith) (by norm_num)
    have hp := hg.gen.pos hb hb1
    filter_upwards [self_mem_nhdsWithin, mem_nhdsWithin_of_mem_nhds (Iio_mem_nhds hp)] with s hs hs'
    have h0 : 0 ≤ s := hs
    have := (hg.gen.le_iff hb hb1.le h0).2 (mem_Iio.1 hs').le
    linarith [le_max_left ((a + 1) / 2) (1 / 2 : ℝ)]
  · filter_upwards [self_mem_nhdsWithin] with s hs
    exact (hg.gen.range s hs).2.trans_lt ha

theorem inv_cont (hg : g.Regular) {a : ℝ} (ha : 0 ≤ a) : ContinuousWithinAt g.inv (Ici a) a := by
  rcases ha.eq_or_lt with rfl | h
  · exact inv_cont_zero hg
  · exact (inv_deriv hg h).continuousAt.continuousWithinAt

/-- integrating the first and the second derivative of the inverse generator -/
theorem lint_first (hg : g.Regular) {a : ℝ} (ha : 0 ≤ a) :
    ∫⁻ s in Ioi a, ENNReal.ofReal (-(deriv g.inv s)) = ENNReal.ofReal (g.inv a) := by
  refine lint_Ioi (inv_cont hg ha) (fun x hx => ?_) (fun x hx => ?_) (inv_tendsto hg)
  · rw [neg_neg]; exact inv_deriv hg (ha.trans_lt hx)
  · exact (neg_pos.2 (inv_deriv_neg hg (ha.trans_lt hx))).le

theorem lint_second (hg : g.Regular) {a : ℝ} (ha : 0 < a) :
    ∫⁻ s in Ioi a, ENNReal.ofReal (iteratedDeriv 2 g.inv s) = ENNReal.ofReal (-(deriv g.inv a)) := by
  refine lint_Ioi (F := fun s => -(deriv g.inv s)) (inv_deriv2 hg ha).continuousAt.neg.continuousWithinAt
    (fun x hx => (inv_deriv2 hg (ha.trans hx)).neg) (fun x hx => inv_second_nonneg hg (ha.trans hx)) (inv_deriv_tendsto hg)

/-- the product `ψ ψ'` -/
theorem lint_product (hg : g.Regular) {a : ℝ} (ha : 0 < a) :
    ∫⁻ s in Ioi a, ENNReal.ofReal (g.inv s * iteratedDeriv 2 g.inv s + deriv g.inv s ^ 2) =
      ENNReal.ofReal (g.inv a * -(deriv g.inv a)) := by
  refine lint_Ioi (F := fun s => g.inv s * -(deriv g.inv s)) ?_ (fun x hx => ?_) (fun x hx => ?_) ?_
  · exact ((inv_deriv hg ha).continuousAt.mul (inv_deriv2 hg ha).continuousAt.neg).continuousWithinAt
  · have := (inv_deriv hg (ha.trans hx)).mul (inv_deriv2 hg (ha.trans hx)).neg
    refine this.congr_deriv ?_
    simp only [Pi.neg_apply]
    ring
  · exact add_nonneg (mul_nonneg (hg.gen.range x (ha.trans hx).le).1.le (inv_second_nonneg hg (ha.trans hx))) (sq_nonneg _)
  · simpa using (inv_tendsto hg).mul (inv_deriv_tendsto hg)

theorem lint_square (hg : g.Regular) :
    ∫⁻ s in Ioi 0, ENNReal.ofReal (g.inv s * -(deriv g.inv s)) = ENNReal.ofReal (1 / 2) := by
  have h := lint_Ioi (F := fun s => g.inv s ^ 2 / 2) (F' := fun s => g.inv s * -(deriv g.inv s)) (a := 0)
    (((inv_cont_zero hg).pow 2).div_const 2) (fun x hx => ?_) (fun x hx => ?_) ?_
  · rw [h, hg.gen.inv_zero]; norm_num
  · refine (((inv_deriv hg hx).pow 2).div_const 2).congr_deriv ?_
    push_cast
    ring
  · exact mul_nonneg (hg.gen.range x (mem_Ioi.1 hx).le).1.le (neg_pos.2 (inv_deriv_neg hg hx)).le
  · simpa using ((inv_tendsto hg).pow 2).div_const 2

theorem second_measurable (g : Gen) : Measurable (iteratedDeriv 2 g.inv) := by
  have : iteratedDeriv 2 g.inv = deriv (deriv g.inv) := by rw [iteratedDeriv_succ, iteratedDeriv_one]
  rw [this]
  exact measurable_deriv _

/-- the two double integrals add up to one half -/
theorem double_sum (hg : g.Regular) :
    (∫⁻ t in Ioi (0 : ℝ), ∫⁻ s in Ioi (0 : ℝ), ENNReal.ofReal (g.inv (s + t) * iteratedDeriv 2 g.inv (s + t))) +
      (∫⁻ w in Ioi (0 : ℝ), ENNReal.ofReal w * ENNReal.ofReal (deriv g.inv w ^ 2)) = ENNReal.ofReal (1 / 2) := by
  have hm : Measurable fun w => ENNReal.ofReal (deriv g.inv w ^ 2) := ((measurable_deriv _).pow_const 2).ennreal_ofReal
  have hm2 : Measurable fun z : ℝ × ℝ => ENNReal.ofReal (deriv g.inv (z.2 + z.1) ^ 2) :=
    hm.comp (measurable_snd.add measurable_fst)
  have hm3 : Measurable fun t : ℝ => ∫⁻ s in Ioi (0 : ℝ), ENNReal.ofReal (deriv g.inv (s + t) ^ 2) := hm2.lintegral_prod_right'
  rw [← double_eq hm, ← lintegral_add_right _ hm3, ← lint_square hg]
  refine setLIntegral_congr_fun measurableSet_Ioi fun t ht => ?_
  have hm4 : Measurable fun s : ℝ => ENNReal.ofReal (deriv g.inv (s + t) ^ 2) := hm.comp (measurable_id.add_const t)
  beta_reduce
  rw [← lintegral_add_right _ hm4, ← lint_product hg ht]
  rw [← zero_add t, ← lint_shift, zero_add]
  refine setLIntegral_congr_fun measurableSet_Ioi fun s hs => ?_
  have hst : 0 < s + t := add_pos hs ht
  beta_reduce
  rw [ENNReal.ofReal_add (mul_nonneg (hg.gen.range _ hst.le).1.le (inv_second_nonneg hg hst)) (sq_nonneg _)]

/-- the change of variables in both arguments -/
theorem square_subst (hg : g.Regular) {u v : ℝ} (hu : 0 < u) (hu1 : u ≤ 1) (hv : 0 < v) (hv1 : v ≤ 1) (K : ℝ → ENNReal) :
    ∫⁻ t in Ioi (g.fi v), ∫⁻ s in Ioi (g.fi u), K (s + t) =
      ∫⁻ y in Ioo 0 v, ∫⁻ x in Ioo 0 u, ENNReal.ofReal (deriv g.fi x * deriv g.fi y) * K (g.fi x + g.fi y) := by
  rw [fi_subst hg hv hv1]
  refine setLIntegral_congr_fun measurableSet_Ioo fun y hy => ?_
  beta_reduce
  rw [fi_subst hg hu hu1, ← lintegral_const_mul' _ _ ENNReal.ofReal_ne_top]
  refine setLIntegral_congr_fun measurableSet_Ioo fun x hx => ?_
  beta_reduce
  have h1 := fi_deriv_neg hg hx.1 (hx.2.trans_le hu1)
  have h2 := fi_deriv_neg hg hy.1 (hy.2.trans_le hv1)
  rw [← mul_assoc, ← ENNReal.ofReal_mul (abs_nonneg _), ← abs_mul, abs_of_pos (mul_pos_of_neg_of_neg h2 h1), mul_comm (deriv g.fi y)]

/-- the density of the copula integrates to the copula -/
theorem arch_density (hg : g.Regular) {u v : ℝ} (hu : 0 < u) (hu1 : u ≤ 1) (hv : 0 < v) (hv1 : v ≤ 1) :
    ∫⁻ y in Ioo 0 v, ∫⁻ x in Ioo 0 u, ENNReal.ofReal (iteratedDeriv 2 g.inv (g.fi x + g.fi y) * (deriv g.fi x * deriv g.fi y)) =
      ENNReal.ofReal (g.inv (g.fi u + g.fi v)) := by
  have hu0 := hg.gen.nonneg hu hu1
  have hv0 := hg.gen.nonneg hv hv1
  have h := square_subst hg hu hu1 hv hv1 fun w => ENNReal.ofReal (iteratedDeriv 2 g.inv w)
  have e : ∫⁻ t in Ioi (g.fi v), ∫⁻ s in Ioi (g.fi u), ENNReal.ofReal (iteratedDeriv 2 g.inv (s + t)) =
      ENNReal.ofReal (g.inv (g.fi u + g.fi v)) := by
    rw [← lint_first hg (add_nonneg hu0 hv0), add_comm (g.fi u), ← lint_shift]
    refine setLIntegral_congr_fun measurableSet_Ioi fun t ht => ?_
    have ht0 : 0 < t := hv0.trans_lt ht
    beta_reduce
    rw [lint_shift (fun w => ENNReal.ofReal (iteratedDeriv 2 g.inv w)), lint_second hg (by linarith), add_comm]
  rw [← e, h]
  refine setLIntegral_congr_fun measurableSet_Ioo fun y hy => setLIntegral_congr_fun measurableSet_Ioo fun x hx => ?_
  beta_reduce
  have h1 := fi_deriv_neg hg hx.1 (hx.2.trans_le hu1)
  have h2 := fi_deriv_neg hg hy.1 (hy.2.trans_le hv1)
  rw [mul_comm, ENNReal.ofReal_mul (mul_pos_of_neg_of_neg h1 h2).le]

end Pacal.Depend
