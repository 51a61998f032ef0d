import Verif.Depend.LemRank
import Verif.Copula.Model

/-!
Helper lemmas about the functions of the model.
-/

open MeasureTheory ProbabilityTheory Set

namespace Pacal.Depend

variable {Ω : Type*} [MeasurableSpace Ω] {P : Measure Ω} [IsProbabilityMeasure P] {X Y : Ω → ℝ}

theorem prepare_ok {o : Obj} {i j : ℕ} (hi : i < o.ms.length) (hj : j < o.ms.length) :
    prepare o i j = .ok (min i j, max i j) := by
  simp [prepare, hi, hj]

theorem item_ok {α : Type} {l : List α} {k : ℕ} {v : α} (h : l[k]? = some v) : item l k = .ok v := by
  simp [item, h]

theorem integral_one {p : ℝ → ℝ} (h : HasDensityOne p P X) {F : ℝ → ℝ} (hF : Measurable F)
    {a b : ℝ} (hX : ∀ᵐ ω ∂P, a ≤ X ω ∧ X ω ≤ b) : integrate (fun x => F x * p x) a b = ∫ ω, F (X ω) ∂P := by
  have hd : Measurable fun x : ℝ => ENNReal.ofReal (p x) := h.pmeas.ennreal_ofReal
  have hab : a ≤ b := le_of_ae (P := P) hX
  have hae : ∀ᵐ x ∂P.map X, x ∈ Icc a b := by
    refine (ae_map_iff (p := fun z => z ∈ Icc a b) h.meas.aemeasurable measurableSet_Icc).2 ?_
    filter_upwards [hX] with ω h1 using h1
  symm
  rw [← integral_map h.meas.aemeasurable hF.aestronglyMeasurable (f := F),
    ← setIntegral_eq_integral_of_ae_compl_eq_zero (s := Icc a b)
      (by filter_upwards [hae] with z hz hn using absurd hz hn), h.law,
    setIntegral_withDensity_eq_setIntegral_toReal_smul hd (by simp) _ measurableSet_Icc, integrate,
    intervalIntegral.integral_of_le hab, ← integral_Icc_eq_integral_Ioc]
  refine setIntegral_congr_fun measurableSet_Icc fun z _ => ?_
  simp only [ENNReal.toReal_ofReal (h.nonneg z), smul_eq_mul, mul_comm]

theorem kendall_comm (P : Measure Ω) (X Y : Ω → ℝ) : kendall P X Y = kendall P Y X := by
  simp only [kendall, mul_comm]

theorem pearson_comm (P : Measure Ω) (X Y : Ω → ℝ) : pearson P X Y = pearson P Y X := by
  rw [pearson, pearson, covariance_comm, mul_comm (Real.sqrt _)]

theorem minmax_cases {p : (Ω → ℝ) → (Ω → ℝ) → ℝ} (hp : ∀ U V, p U V = p V U) (Z : ℕ → Ω → ℝ) (i j : ℕ) :
    p (Z (min i j)) (Z (max i j)) = p (Z i) (Z j) := by
  rcases le_total i j with h | h
  · rw [min_eq_left h, max_eq_right h]
  · rw [min_eq_right h, max_eq_left h, hp]

/-- a variable with a density has no atoms -/
theorem atom_of_density {p : ℝ → ℝ → ℝ} (h : HasDensity p P X Y) :
    (∀ x, P {ω | X ω = x} = 0) ∧ ∀ y, P {ω | Y ω = y} = 0 := by
  have hm : Measurable fun ω => (X ω, Y ω) := h.meas.1.prodMk h.meas.2
  have ac : P.map (fun ω => (X ω, Y ω)) ≪ (volume : Measure (ℝ × ℝ)) := h.law ▸ withDensity_absolutelyContinuous _ _
  constructor
  · intro x
    have hz : (volume : Measure (ℝ × ℝ)) ({x} ×ˢ univ) = 0 := by rw [Measure.volume_eq_prod, Measure.prod_prod]; simp
    have := ac hz
    rw [Measure.map_apply hm ((measurableSet_singleton x).prod MeasurableSet.univ)] at this
    refine measure_mono_null (fun ω hω => ?_) this
    exact ⟨hω, trivial⟩
  · intro y
    have hz : (volume : Measure (ℝ × ℝ)) (univ ×ˢ {y}) = 0 := by rw [Measure.volume_eq_prod, Measure.prod_prod]; simp
    have := ac hz
    rw [Measure.map_apply hm (MeasurableSet.univ.prod (measurableSet_singleton y))] at this
    refine measure_mono_null (fun ω hω => ?_) this
    exact ⟨trivial, hω⟩

/-- Kendall's formula with a density -/
theorem kendall_density {p H : ℝ → ℝ → ℝ} (h : HasDensity p P X Y) (hH : ∀ x y, H x y = P.real {ω | X ω ≤ x ∧ Y ω ≤ y})
    {a1 b1 a2 b2 : ℝ} (hX : ∀ᵐ ω ∂P, X ω ∈ Icc a1 b1) (hY : ∀ᵐ ω ∂P, Y ω ∈ Icc a2 b2) :
    4 * integrateIter (fun x y => H x y * p x y) a1 b1 a2 b2 - 1 = kendall P X Y := by
  have hA : MeasurableSet {w : (ℝ × ℝ) × Ω | X w.2 ≤ w.1.1 ∧ Y w.2 ≤ w.1.2} :=
    (measurableSet_le (h.meas.1.comp measurable_snd) (measurable_fst.comp measurable_fst)).inter
      (measurableSet_le (h.meas.2.comp measurable_snd) (measurable_snd.comp measurable_fst))
  have hm : Measurable fun z : ℝ × ℝ => H z.1 z.2 := by
    simp only [hH]
    exact (measurable_measure_prodMk_left hA).ennreal_toReal
  rw [← (kendall_eq h.meas.1 h.meas.2 (atom_of_density h).1 (atom_of_density h).2).1, iter_eq h hm ?_ hX hY]
  · simp only [hH]
  · refine Integrable.of_bound (hm.comp (h.meas.1.prodMk h.meas.2)).aestronglyMeasurable 1
      (Filter.Eventually.of_forall fun ω => ?_)
    simp only [hH]
    rw [Real.norm_of_nonneg measureReal_nonneg]
    exact measureReal_le_one

theorem iter_congr {f g : ℝ → ℝ → ℝ} (h : ∀ x ∈ Ioo (0 : ℝ) 1, ∀ y ∈ Ioo (0 : ℝ) 1, f x y = g x y) :
    integrateIter f 0 1 0 1 = integrateIter g 0 1 0 1 := by
  simp only [integrateIter, intervalIntegral.integral_of_le zero_le_one, integral_Ioc_eq_integral_Ioo]
  exact setIntegral_congr_fun measurableSet_Ioo fun y hy => setIntegral_congr_fun measurableSet_Ioo fun x hx => h x hx y hy

theorem ctau_eq {C k : ℝ → ℝ → ℝ} (h : Joins C P X Y) (hk : HasDensity (onSquare k) P (rank P X) (rank P Y)) :
    4 * integrateIter (fun x y => C x y * k x y) 0 1 0 1 - 1 = kendall P X Y := by
  rw [← kendall_rank h.meas.1 h.meas.2 h.cont.1 h.cont.2,
    ← kendall_density hk (H := fun u v => P.real {ω | rank P X ω ≤ u ∧ rank P Y ω ≤ v}) (fun _ _ => rfl)
      (Filter.Eventually.of_forall fun ω => rank_mem h.meas.1 ω) (Filter.Eventually.of_forall fun ω => rank_mem h.meas.2 ω)]
  congr 2
  refine iter_congr fun x hx y hy => ?_
  rw [rank_joint h hx hy, onSquare, if_pos ⟨hx, hy⟩]

theorem spearman_self (hX : Measurable X) (hc : Continuous (cdf (P.map X))) : spearman P X X = 1 := by
  rw [spearman, pearson, covariance_self (rank_measurable hX).aemeasurable, Real.mul_self_sqrt (variance_nonneg _ _),
    rank_variance hX hc]
  norm_num

theorem kendall_self (hX : Measurable X) (hc : Continuous (cdf (P.map X))) : kendall P X X = 1 := by
  have h := (kendall_eq hX hX (atom_zero hX hc) (atom_zero hX hc)).2
  have hz : {w : Ω × Ω | (X w.1 - X w.2) * (X w.1 - X w.2) < 0} = ∅ :=
    Set.eq_empty_of_forall_notMem fun w hw => absurd (mul_self_nonneg (X w.1 - X w.2)) (not_le.2 hw)
  rw [hz, measureReal_empty] at h
  rw [kendall, hz, measureReal_empty]
  linarith

end Pacal.Depend
