import Verif.Direct.Lem

/-! The answers are densities. -/

namespace Pacal.Direct
open MeasureTheory Set Real

theorem tanh_diff : Differentiable ℝ Real.tanh := by
  have e : Real.tanh = fun x => Real.sinh x / Real.cosh x := funext Real.tanh_eq_sinh_div_cosh
  rw [e]
  exact Real.differentiable_sinh.div Real.differentiable_cosh fun x => (Real.cosh_pos x).ne'

theorem func_facts (F : Func) : ∃ (R : Set ℝ) (h h' : ℝ → ℝ), InverseOn F.fn h h' F.dom R ∧ MeasurableSet R ∧
    MeasurableSet F.dom ∧ Measurable h ∧ Measurable h' ∧ Measurable F.fn ∧ DifferentiableOn ℝ F.fn F.dom ∧
    (∀ y ∈ R, F.inv y = ⟨some (h y), true⟩ ∧ ∀ np, F.invDeriv y np = .ok (some (h' y))) ∧
    ∀ᵐ y, y ∉ R → (F.inv y = ⟨none, true⟩ ∧ ∀ np, ∃ v, F.invDeriv y np = .ok v) ∨
      ((F = .atan ∨ F = .tanh ∨ F = .sigmoid) ∧ F.inv y = ⟨some 0, false⟩ ∧ ∀ np, F.invDeriv y np = .ok (some 0)) := by
  rcases F with _ | _ | _ | _ | _ | _
  · refine ⟨Ioi 0, expInv, expInvDeriv, inv_exp, measurableSet_Ioi, MeasurableSet.univ, Real.measurable_log, ?_,
      Real.measurable_exp, Real.differentiable_exp.differentiableOn, ?_, ?_⟩
    · unfold expInvDeriv; exact measurable_const.div (continuous_abs.measurable)
    · intro y (hy : 0 < y)
      exact ⟨by simp [Func.inv, not_le.2 hy], fun np => by simp [Func.invDeriv, hy.ne']⟩
    · filter_upwards [measure_singleton_ae 0] with y h0 hy
      have hy' : y ≤ 0 := not_lt.1 hy
      left
      exact ⟨by simp [Func.inv, hy'], fun np => ⟨_, by rw [Func.invDeriv, if_neg h0]⟩⟩
  · refine ⟨univ, logInv, logInvDeriv, inv_log, MeasurableSet.univ, measurableSet_Ioi, Real.measurable_exp,
      Real.measurable_exp, Real.measurable_log, ?_, fun y _ => ⟨rfl, fun np => rfl⟩,
      Filter.Eventually.of_forall fun y hy => (hy (mem_univ y)).elim⟩
    intro x (hx : 0 < x)
    exact (Real.differentiableAt_log hx.ne').differentiableWithinAt
  · have hm : MeasurableSet {x : ℝ | x ≤ -π / 2 ∨ x ≥ π / 2} := (measurableSet_Iic).union measurableSet_Ici
    refine ⟨Ioo (-(π / 2)) (π / 2), atanInv, atanInvDeriv, inv_atan, measurableSet_Ioo, MeasurableSet.univ, ?_, ?_,
      Real.continuous_arctan.measurable, Real.differentiable_arctan.differentiableOn, ?_, ?_⟩
    · exact Measurable.ite hm measurable_const measurable_tan
    · exact Measurable.ite hm measurable_const (measurable_const.add (measurable_tan.pow_const 2))
    · intro y hy
      have : ¬ (y ≤ -π / 2 ∨ y ≥ π / 2) := by
        rw [neg_div]; push Not; exact ⟨hy.1, hy.2⟩
      exact ⟨by simp only [Func.inv, decide_eq_false this, Bool.not_false], fun np => rfl⟩
    · refine Filter.Eventually.of_forall fun y hy => Or.inr ⟨by simp, ?_⟩
      have : y ≤ -π / 2 ∨ y ≥ π / 2 := by
        rw [neg_div]; by_contra h; push Not at h; exact hy ⟨h.1, h.2⟩
      exact ⟨by simp only [Func.inv, decide_eq_true this, Bool.not_true, atanInv, if_pos this], fun np => by
        simp only [Func.invDeriv, atanInvDeriv, if_pos this]⟩
  · have hm : MeasurableSet {x : ℝ | x ≤ -1 ∨ x ≥ 1} := (measurableSet_Iic).union measurableSet_Ici
    refine ⟨Ioo (-1) 1, tanhInv, tanhInvDeriv, inv_tanh, measurableSet_Ioo, MeasurableSet.univ, ?_, ?_,
      tanh_diff.continuous.measurable, tanh_diff.differentiableOn, ?_, ?_⟩
    · exact Measurable.ite hm measurable_const (by fun_prop)
    · exact Measurable.ite hm measurable_const (by fun_prop)
    · intro y hy
      have : ¬ (y ≤ -1 ∨ y ≥ 1) := by push Not; exact ⟨hy.1, hy.2⟩
      exact ⟨by simp only [Func.inv, decide_eq_false this, Bool.not_false], fun np => rfl⟩
    · refine Filter.Eventually.of_forall fun y hy => Or.inr ⟨by simp, ?_⟩
      have : y ≤ -1 ∨ y ≥ 1 := by by_contra h; push Not at h; exact hy ⟨h.1, h.2⟩
      exact ⟨by simp only [Func.inv, decide_eq_true this, Bool.not_true, tanhInv, if_pos this], fun np => by
        simp only [Func.invDeriv, tanhInvDeriv, if_pos this]⟩
  · have e : Func.fn .sigmoid = sigmoidFn := by
      funext x; show 1 / (1 + Real.exp (-x)) = _; rw [sigmoidFn_eq, Real.sigmoid_def, one_div]
    have hm : MeasurableSet {x : ℝ | x ≤ -1 ∨ x ≥ 1} := (measurableSet_Iic).union measurableSet_Ici
    refine ⟨Ioo 0 1, sigmoidInv, sigmoidInvDeriv, e ▸ inv_sigmoid, measurableSet_Ioo, MeasurableSet.univ, ?_, ?_,
      ?_, ?_, ?_, ?_⟩
    · exact Measurable.ite hm measurable_const (by fun_prop)
    · exact Measurable.ite hm measurable_const (by fun_prop)
    · show Measurable fun x : ℝ => 1 / (1 + Real.exp (-x)); fun_prop
    · show DifferentiableOn ℝ (fun x : ℝ => 1 / (1 + Real.exp (-x))) univ
      intro x _
      have : (1 : ℝ) + Real.exp (-x) ≠ 0 := by positivity
      have h1 : DifferentiableAt ℝ (fun x : ℝ => 1 + Real.exp (-x)) x := by fun_prop
      exact ((differentiableAt_const 1).div h1 this).differentiableWithinAt
    · intro y hy
      have h1 : ¬ (y ≤ -1 ∨ y ≥ 1) := by push Not; exact ⟨by linarith [hy.1], hy.2⟩
      have h2 : ¬ y / (1 - y) ≤ 0 := not_le.2 (div_pos hy.1 (by linarith [hy.2]))
      exact ⟨by simp only [Func.inv, if_neg h1, if_neg h2], fun np => by rw [Func.invDeriv, if_neg hy.1.ne']⟩
    · filter_upwards [measure_singleton_ae 0] with y h0 hy
      by_cases h1 : y ≤ -1 ∨ y ≥ 1
      · right
        exact ⟨by simp, by simp only [Func.inv, if_pos h1], fun np => by
          rw [Func.invDeriv, if_neg h0, sigmoidInvDeriv, if_pos h1]⟩
      · left
        push Not at h1
        have h2 : y / (1 - y) ≤ 0 := by
          refine div_nonpos_of_nonpos_of_nonneg ?_ (by linarith)
          by_contra h; push Not at h; exact hy ⟨h, h1.2⟩
        refine ⟨by simp only [Func.inv, if_pos h2]; exact if_neg (by push Not; exact h1), fun np => ⟨_, by
          rw [Func.invDeriv, if_neg h0]⟩⟩
  · refine ⟨univ, tanInv, tanInvDeriv, inv_tan, MeasurableSet.univ, measurableSet_Ioo,
      Real.continuous_arctan.measurable, ?_, measurable_tan, ?_, fun y _ => ⟨rfl, fun np => rfl⟩,
      Filter.Eventually.of_forall fun y hy => (hy (mem_univ y)).elim⟩
    · unfold tanInvDeriv; fun_prop
    · intro x hx
      exact (Real.differentiableAt_tan.2 (Real.cos_pos_of_mem_Ioo hx).ne').differentiableWithinAt
where
  measure_singleton_ae (a : ℝ) : ∀ᵐ y : ℝ, y ≠ a := by
    rw [ae_iff]; simp
  measurable_tan : Measurable Real.tan := by
    have : Real.tan = fun x => Real.sin x / Real.cos x := by funext x; exact Real.tan_eq_sin_div_cos x
    rw [this]; exact Real.measurable_sin.div Real.measurable_cos

/-- the answers for both kinds of numbers, almost everywhere -/
def Dense (e : Expr) (ν : Measure ℝ) : Prop :=
  ∃ f : ℝ → ℝ, Measurable f ∧ (∀ x, 0 ≤ f x) ∧ (∀ᵐ x, ∀ np, e.pdf ⟨some x, np⟩ = .ok (some (f x))) ∧
    ν = volume.withDensity fun x => ENNReal.ofReal (f x)

theorem ae_ne (a : ℝ) : ∀ᵐ y : ℝ, y ≠ a := by rw [ae_iff]; simp

theorem dense_shifted {d : Expr} {ν : Measure ℝ} {s c : ℝ} (hc : c ≠ 0) (h : Dense d ν) :
    Dense (.shifted s c d) (ν.map fun x => c * x + s) := by
  obtain ⟨f, hm, h0, ha, rfl⟩ := h
  have e1 : oneScale c = 1 / c := by unfold oneScale; split_ifs with h <;> [simp [h]; norm_num]
  have H : InverseOn (fun x : ℝ => c * x + s) (fun y => (y - s) * oneScale c) (fun _ => oneScale c) univ univ := by
    rw [e1]
    refine ⟨fun x _ => ⟨mem_univ _, by field_simp; ring⟩, fun y _ => ⟨mem_univ _, by field_simp; ring, ?_⟩⟩
    simpa using ((hasDerivAt_id y).sub_const s).mul_const (1 / c)
  refine ⟨fun y => f ((y - s) * oneScale c) * |oneScale c|, by fun_prop,
    fun y => mul_nonneg (h0 _) (abs_nonneg _), ?_, ?_⟩
  · filter_upwards [pull (by fun_prop) H ha] with y hy np
    simp only [Expr.pdf, Option.map_some]
    rw [hy (mem_univ _) np, mul_comm (f _)]
    rfl
  · have := push (f := f) MeasurableSet.univ MeasurableSet.univ (by fun_prop) H
    simpa using this

theorem dense_func {d : Expr} {ν : Measure ℝ} {μ} {F : Func} (hs : (Expr.func F d).Safe) (hd : d.Sound μ)
    (hz : ν F.domᶜ = 0) (h : Dense d ν) : Dense (.func F d) (ν.map F.fn) := by
  obtain ⟨f, hm, h0, ha, rfl⟩ := h
  obtain ⟨R, g, g', H, hR, hD, hg, hg', hf, hdi, hin, hout⟩ := func_facts F
  refine ⟨R.indicator fun y => f (g y) * |g' y|, ?_, ?_, ?_, ?_⟩
  · exact ((hm.comp hg).mul (continuous_abs.measurable.comp hg')).indicator hR
  · exact fun y => indicator_nonneg (fun y _ => mul_nonneg (h0 _) (abs_nonneg _)) y
  · filter_upwards [pull hdi H ha, hout] with y hy ho np
    by_cases hyR : y ∈ R
    · rw [indicator_of_mem hyR]
      simp only [Expr.pdf]
      rw [(hin y hyR).1, hy hyR true, ok_bind, (hin y hyR).2 np]
      rfl
    · rw [indicator_of_notMem hyR]
      rcases ho hyR with ⟨h1, h2⟩ | ⟨h1, h2, h3⟩
      · obtain ⟨v, hv⟩ := h2 np
        simp only [Expr.pdf]
        rw [h1, hv]
        rcases silent d hs.2 (quiet_of_sound d hd) with h | h
        · rw [h]; rfl
        · rw [h]
          show Except.ok (some ((both _ (some 0) v).getD 0)) = _
          cases v <;> simp [both]
      · obtain ⟨w, hw⟩ := (answers d hs.2).2 (hs.1 h1) (some 0) false
        simp only [Expr.pdf]
        rw [h2, h3 np, hw]
        show Except.ok (some ((both _ w (some 0)).getD 0)) = _
        cases w <;> simp [both]
  · rw [← push (f := f) hD hR hf H, Measure.restrict_eq_self_of_ae_mem]
    exact (ae_iff.2 hz : _)

theorem dense_inv {d : Expr} {ν : Measure ℝ} (h : Dense d ν) : Dense (.inv d) (ν.map fun x => 1 / x) := by
  obtain ⟨f, hm, h0, ha, rfl⟩ := h
  have H : InverseOn (fun x : ℝ => 1 / x) (fun y => 1 / y) (fun y => -1 / y ^ 2) {0}ᶜ {0}ᶜ := by
    refine ⟨fun x hx => ⟨?_, by simp⟩, fun y hy => ⟨?_, by simp, ?_⟩⟩
    · simpa using hx
    · simpa using hy
    · have hy' : y ≠ 0 := hy
      simpa [neg_div] using (hasDerivAt_inv hy')
  refine ⟨({0}ᶜ : Set ℝ).indicator fun y => f (1 / y) * |(-1) / y ^ 2|, ?_, ?_, ?_, ?_⟩
  · refine Measurable.indicator ?_ (measurableSet_singleton 0).compl
    exact (hm.comp (by fun_prop)).mul (continuous_abs.measurable.comp (by fun_prop))
  · exact fun y => indicator_nonneg (fun y _ => mul_nonneg (h0 _) (abs_nonneg _)) y
  · have hdi : DifferentiableOn ℝ (fun x : ℝ => 1 / x) {0}ᶜ := by
      intro x hx
      have hx' : x ≠ 0 := hx
      exact ((differentiableAt_const 1).div differentiableAt_id hx').differentiableWithinAt
    filter_upwards [pull hdi H ha, ae_ne 0] with y hy hy0 np
    rw [indicator_of_mem (show y ∈ ({0}ᶜ : Set ℝ) from hy0)]
    simp only [Expr.pdf, if_neg hy0]
    have e1 : (1.0 : ℝ) / y = 1 / y := by norm_num
    rw [e1, hy hy0 np]
    show Except.ok (some (f (1 / y) / y ^ 2)) = _
    rw [abs_div, abs_neg, abs_one, abs_of_nonneg (sq_nonneg y), mul_one_div]
  · rw [← push (f := f) (measurableSet_singleton 0).compl (measurableSet_singleton 0).compl (by fun_prop) H,
      Measure.restrict_eq_self_of_ae_mem]
    exact (withDensity_absolutelyContinuous _ _) (ae_iff.1 (ae_ne 0))

/-- the images of the two halves of the line -/
theorem fold {f g h1 h1' h2 h2' : ℝ → ℝ} (hm : Measurable f) (h0 : ∀ x, 0 ≤ f x) (hg : Measurable g)
    (H1 : InverseOn g h1 h1' (Ioi 0) (Ioi 0)) (H2 : InverseOn g h2 h2' (Iio 0) (Ioi 0))
    (m1 : Measurable h1) (m1' : Measurable h1') :
    (volume.withDensity fun x => ENNReal.ofReal (f x)).map g = volume.withDensity fun y =>
      ENNReal.ofReal ((Ioi 0).indicator (fun y => f (h1 y) * |h1' y|) y + (Ioi 0).indicator (fun y => f (h2 y) * |h2' y|) y) := by
  obtain ⟨ν, hν⟩ : ∃ ν : Measure ℝ, ν = volume.withDensity fun x => ENNReal.ofReal (f x) := ⟨_, rfl⟩
  have hs : ν = ν.restrict (Ioi 0) + ν.restrict (Iio 0) := by
    rw [← Measure.restrict_union (by
      rw [Set.disjoint_left]; intro x hx hx'; exact lt_asymm (mem_Ioi.1 hx) (mem_Iio.1 hx')) measurableSet_Iio,
      Measure.restrict_eq_self_of_ae_mem]
    have : ∀ᵐ x ∂ν, x ≠ 0 := by rw [hν]; exact (withDensity_absolutelyContinuous _ _) (ae_iff.1 (ae_ne 0))
    filter_upwards [this] with x hx
    exact (lt_or_gt_of_ne hx).symm.imp id id
  rw [← hν, hs, Measure.map_add _ _ hg, hν, push (f := f) measurableSet_Ioi measurableSet_Ioi hg H1,
    push (f := f) measurableSet_Iio measurableSet_Ioi hg H2, ← withDensity_add_left]
  · congr 1
    funext y
    rw [Pi.add_apply, ENNReal.ofReal_add]
    · exact indicator_nonneg (fun y _ => mul_nonneg (h0 _) (abs_nonneg _)) y
    · exact indicator_nonneg (fun y _ => mul_nonneg (h0 _) (abs_nonneg _)) y
  · exact ENNReal.measurable_ofReal.comp
      (((hm.comp m1).mul (continuous_abs.measurable.comp m1')).indicator measurableSet_Ioi)

theorem dense_abs {d : Expr} {ν : Measure ℝ} (h : Dense d ν) : Dense (.abs d) (ν.map fun x => |x|) := by
  obtain ⟨f, hm, h0, ha, rfl⟩ := h
  have H1 : InverseOn (fun x : ℝ => |x|) (fun y => y) (fun _ => 1) (Ioi 0) (Ioi 0) := by
    refine ⟨fun x (hx : 0 < x) => ⟨?_, abs_of_pos hx⟩, fun y (hy : 0 < y) => ⟨hy, abs_of_pos hy, hasDerivAt_id y⟩⟩
    show 0 < |x|; exact abs_pos.2 hx.ne'
  have H2 : InverseOn (fun x : ℝ => |x|) (fun y => -y) (fun _ => -1) (Iio 0) (Ioi 0) := by
    refine ⟨fun x (hx : x < 0) => ⟨?_, ?_⟩, fun y (hy : 0 < y) => ⟨?_, ?_, (hasDerivAt_id y).neg⟩⟩
    · show 0 < |x|; exact abs_pos.2 hx.ne
    · show -|x| = x; rw [abs_of_neg hx, neg_neg]
    · show -y < 0; linarith
    · show |-y| = y; rw [abs_neg, abs_of_pos hy]
  have d1 : DifferentiableOn ℝ (fun x : ℝ => |x|) (Ioi 0) := fun x (hx : 0 < x) =>
    (differentiableAt_abs hx.ne').differentiableWithinAt
  have d2 : DifferentiableOn ℝ (fun x : ℝ => |x|) (Iio 0) := fun x (hx : x < 0) =>
    (differentiableAt_abs hx.ne).differentiableWithinAt
  refine ⟨_, ?_, ?_, ?_, fold hm h0 continuous_abs.measurable H1 H2 (by fun_prop) (by fun_prop)⟩
  · refine Measurable.add ?_ ?_ <;> refine Measurable.indicator ?_ measurableSet_Ioi
    · exact (hm.comp measurable_id).mul measurable_const
    · exact (hm.comp measurable_neg).mul measurable_const
  · exact fun y => add_nonneg (indicator_nonneg (fun y _ => mul_nonneg (h0 _) (abs_nonneg _)) y)
      (indicator_nonneg (fun y _ => mul_nonneg (h0 _) (abs_nonneg _)) y)
  · filter_upwards [pull d1 H1 ha, pull d2 H2 ha, ae_ne 0] with y h1 h2 hy np
    by_cases hp : 0 < y
    · have hn : ¬ ∃ v, some y = some v ∧ v < 0 := by
        rintro ⟨v, hv, h⟩; cases hv; exact lt_asymm h hp
      rw [indicator_of_mem (mem_Ioi.2 hp), indicator_of_mem (mem_Ioi.2 hp)]
      simp only [Expr.pdf, if_neg hn, Option.map_some]
      rw [h1 hp np, h2 hp np]
      show Except.ok (some (f (-y) + f y)) = _
      simp [add_comm]
    · have hn : y < 0 := lt_of_le_of_ne (not_lt.1 hp) hy
      rw [indicator_of_notMem (by simpa using hn.le), indicator_of_notMem (by simpa using hn.le)]
      simp only [Expr.pdf, if_pos (⟨y, rfl, hn⟩ : ∃ v, some y = some v ∧ v < 0)]
      rw [add_zero]; rfl

theorem dense_square {d : Expr} {ν : Measure ℝ} (h : Dense d ν) : Dense (.square d) (ν.map fun x => x * x) := by
  obtain ⟨f, hm, h0, ha, rfl⟩ := h
  have H1 : InverseOn (fun x : ℝ => x * x) (fun y => √y) (fun y => 1 / (2 * √y)) (Ioi 0) (Ioi 0) := by
    refine ⟨fun x (hx : 0 < x) => ⟨mul_pos hx hx, Real.sqrt_mul_self hx.le⟩,
      fun y (hy : 0 < y) => ⟨Real.sqrt_pos.2 hy, Real.mul_self_sqrt hy.le, Real.hasDerivAt_sqrt hy.ne'⟩⟩
  have H2 : InverseOn (fun x : ℝ => x * x) (fun y => -√y) (fun y => -(1 / (2 * √y))) (Iio 0) (Ioi 0) := by
    refine ⟨fun x (hx : x < 0) => ⟨mul_pos_of_neg_of_neg hx hx, ?_⟩,
      fun y (hy : 0 < y) => ⟨?_, ?_, (Real.hasDerivAt_sqrt hy.ne').neg⟩⟩
    · show -√(x * x) = x; rw [Real.sqrt_mul_self_eq_abs, abs_of_neg hx, neg_neg]
    · show -√y < 0; linarith [Real.sqrt_pos.2 hy]
    · show -√y * -√y = y; rw [neg_mul_neg, Real.mul_self_sqrt hy.le]
  have d1 : ∀ s : Set ℝ, DifferentiableOn ℝ (fun x : ℝ => x * x) s := fun s => by fun_prop
  refine ⟨_, ?_, ?_, ?_, fold hm h0 (by fun_prop) H1 H2 (by fun_prop) (by fun_prop)⟩
  · refine Measurable.add ?_ ?_ <;> refine Measurable.indicator ?_ measurableSet_Ioi
    · exact (hm.comp (by fun_prop)).mul (continuous_abs.measurable.comp (by fun_prop))
    · exact (hm.comp (by fun_prop)).mul (continuous_abs.measurable.comp (by fun_prop))
  · exact fun y => add_nonneg (indicator_nonneg (fun y _ => mul_nonneg (h0 _) (abs_nonneg _)) y)
      (indicator_nonneg (fun y _ => mul_nonneg (h0 _) (abs_nonneg _)) y)
  · filter_upwards [pull (d1 _) H1 ha, pull (d1 _) H2 ha] with y h1 h2 np
    by_cases hp : 0 < y
    · rw [indicator_of_mem (mem_Ioi.2 hp), indicator_of_mem (mem_Ioi.2 hp)]
      simp only [Expr.pdf, if_neg (not_le.2 hp)]
      rw [h1 hp true, h2 hp true]
      show Except.ok (some ((f (-√y) + f (√y)) / (2 * √y))) = _
      have hq : 0 < 2 * √y := by have := Real.sqrt_pos.2 hp; linarith
      rw [abs_neg, abs_of_pos (one_div_pos.2 hq)]
      congr 2; ring
    · rw [indicator_of_notMem (by simpa using hp), indicator_of_notMem (by simpa using hp)]
      simp only [Expr.pdf, if_pos (not_lt.1 hp)]
      rw [add_zero]; rfl

theorem dense_all {μ} (e : Expr) (hd : e.Sound μ) (hs : e.Safe) : Dense e (e.law μ) := by
  induction e with
  | base p =>
    obtain ⟨f, h1, h2, h3, h4⟩ := hd.1
    exact ⟨f, h1, h2, h3.mono fun x hx np => hx, h4⟩
  | shifted s c d ih => exact dense_shifted hd.1 (ih hd.2 hs)
  | func F d ih => exact dense_func hs hd.2 hd.1 (ih hd.2 hs.2)
  | inv d ih => exact dense_inv (ih hd hs)
  | abs d ih => exact dense_abs (ih hd hs)
  | square d ih => exact dense_square (ih hd hs)

end Pacal.Direct
