import Verif.Order.LemDensity
import Mathlib.MeasureTheory.Measure.Prod
import Mathlib.MeasureTheory.Integral.Lebesgue.Basic

/-!
C76: the joint density of two order statistics, and C34: the law of one order statistic.
-/

open MeasureTheory ProbabilityTheory Set
open scoped ENNReal

namespace Pacal
namespace Order

variable {f F : ℝ → ℝ} {μ : Measure ℝ}

/-- Order statistics make sense: every sample of `n` values has exactly one `k`-th smallest value, for every
`1 ≤ k ≤ n`, and it is at most `t` exactly when at least `k` of the values are. -/
theorem C76_kth {n : ℕ} (x : Fin n → ℝ) {k : ℕ} (hk : 1 ≤ k) (hkn : k ≤ n) :
    ∃ v, IsKth x k v ∧ (∀ w, IsKth x k w → w = v) ∧
      ∀ t, v ≤ t ↔ k ≤ (Finset.univ.filter fun m => x m ≤ t).card := by
  obtain ⟨v, hv⟩ := isKth_exists x hk hkn
  exact ⟨v, hv, fun w hw => hw.unique hv, hv.le_iff⟩

/-- **C34, law.** For `n` independent observations of a variable with density `f` and distribution function
`F`, the `k`-th smallest observation has exactly the density that `iid_order_stat` computes. -/
theorem C34_law {Ω : Type*} [MeasurableSpace Ω] (P : Measure Ω) [IsProbabilityMeasure P]
    [IsProbabilityMeasure μ] (h : Describes f F μ) {n : ℕ} (X : Fin n → Ω → ℝ)
    (hX : ∀ m, Measurable (X m)) (hind : iIndepFun X P) (hlaw : ∀ m, P.map (X m) = μ) {k : ℕ}
    (hk : 1 ≤ k) (hkn : k ≤ n) (U : Ω → ℝ) (hU : ∀ ω, IsKth (fun m => X m ω) k (U ω)) :
    P.map U = volume.withDensity fun x => ENNReal.ofReal (Iid.orderStat n k (f x) (F x)) := by
  have := h.nullSingleton
  obtain ⟨p, rfl⟩ : ∃ p, k = p + 1 := ⟨k - 1, by omega⟩
  ext S hS
  rw [single_law hX hind hlaw hU hS, h.single_density hS, card_arrs1, withDensity_apply _ hS]
  refine lintegral_congr fun z => ?_
  congr 1
  unfold Iid.orderStat
  rw [Iid.binomialCoeff_eq n (p + 1) hkn, Rat.cast_natCast, Nat.add_sub_cancel,
    show n - (p + 1) = n - 1 - p by omega]
  obtain ⟨m, rfl⟩ : ∃ m, n = m + 1 := ⟨n - 1, by omega⟩
  have hc := Nat.add_one_mul_choose_eq m p
  have hc' : ((m : ℝ) + 1) * (m.choose p : ℝ) = ((m + 1).choose (p + 1) : ℝ) * (p + 1) := by
    exact_mod_cast hc
  rw [Nat.add_sub_cancel]
  push_cast
  rw [hc']
  ring

/-- **C76.** For `n` independent observations of a variable with density `f` and distribution function `F`,
and ranks `1 ≤ i < j ≤ n`, the pair of the `i`-th and the `j`-th smallest observation has exactly the joint
density that `IJthOrderStatsNDDistr(f, n, i, j)` evaluates, and the evaluation never fails. -/
theorem C76_joint {Ω : Type*} [MeasurableSpace Ω] (P : Measure Ω) [IsProbabilityMeasure P]
    [IsProbabilityMeasure μ] (h : Describes f F μ) {n : ℕ} (X : Fin n → Ω → ℝ)
    (hX : ∀ m, Measurable (X m)) (hind : iIndepFun X P) (hlaw : ∀ m, P.map (X m) = μ) {i j : ℕ}
    (hi : 1 ≤ i) (hij : i < j) (hj : j ≤ n) (U V : Ω → ℝ)
    (hU : ∀ ω, IsKth (fun m => X m ω) i (U ω)) (hV : ∀ ω, IsKth (fun m => X m ω) j (V ω)) :
    ∃ g : ℝ → ℝ → ℝ, (∀ x y, pdf n i j f F x y = .ok (g x y) ∧ 0 ≤ g x y) ∧
      P.map (fun ω => (U ω, V ω)) = volume.withDensity fun z => ENNReal.ofReal (g z.1 z.2) := by
  have := h.nullSingleton
  refine ⟨_, fun x y => ⟨pdf_eq hi hij hj f F x y, ?_⟩, ?_⟩
  · split_ifs with hxy
    · have h1 := h.F_nonneg x
      have h2 := sub_nonneg.2 (h.mono hxy.le)
      have h3 := sub_nonneg.2 (h.F_le_one y)
      have h4 := h.nonneg x
      have h5 := h.nonneg y
      positivity
    · simp
  · obtain ⟨p, rfl⟩ : ∃ p, i = p + 1 := ⟨i - 1, by omega⟩
    obtain ⟨q, rfl⟩ : ∃ q, j = p + q + 2 := ⟨j - p - 2, by omega⟩
    ext S hS
    have e1 : p + q + 2 - (p + 1) - 1 = q := by omega
    have e2 : n - (p + q + 2) = n - 2 - p - q := by omega
    rw [joint_law hX hind hlaw hU hV hS, h.joint_density hS, withDensity_apply _ hS, e1, e2,
      Nat.add_sub_cancel]

/-- **C76, marginals.** Integrating the second variable out of the joint density leaves the density that
`iid_order_stat` computes for rank `i`, and integrating the first out leaves the one for rank `j` (almost
everywhere); so the two variables the object announces are its marginals. -/
theorem C76_marginals [IsProbabilityMeasure μ] (h : Describes f F μ) {n i j : ℕ} (hi : 1 ≤ i) (hij : i < j)
    (hj : j ≤ n) : ∃ g : ℝ → ℝ → ℝ, (∀ x y, pdf n i j f F x y = .ok (g x y)) ∧
      (∀ᵐ x, ∫⁻ y, ENNReal.ofReal (g x y) = ENNReal.ofReal (Iid.orderStat n i (f x) (F x))) ∧
      (∀ᵐ y, ∫⁻ x, ENNReal.ofReal (g x y) = ENNReal.ofReal (Iid.orderStat n j (f y) (F y))) := by
  -- the canonical sample
  let P : Measure (Fin n → ℝ) := Measure.pi fun _ => μ
  let X : Fin n → (Fin n → ℝ) → ℝ := fun m ω => ω m
  have hX : ∀ m, Measurable (X m) := fun m => measurable_pi_apply m
  have hind : iIndepFun X P := iIndepFun_pi (X := fun _ x => x) fun _ => aemeasurable_id
  have hlaw : ∀ m, P.map (X m) = μ := fun m => (measurePreserving_eval (fun _ => μ) m).map_eq
  choose U hU using fun ω : Fin n → ℝ => isKth_exists (fun m => X m ω) hi (by omega : i ≤ n)
  choose V hV using fun ω : Fin n → ℝ => isKth_exists (fun m => X m ω) (by omega : 1 ≤ j) hj
  obtain ⟨g, hg, hjoint⟩ := C76_joint P h X hX hind hlaw hi hij hj U V hU hV
  have hUl := C34_law P h X hX hind hlaw hi (by omega) U hU
  have hVl := C34_law P h X hX hind hlaw (by omega) hj V hV
  have hUm := measurable_kth hX hU
  have hVm := measurable_kth hX hV
  have hFm := h.mono.measurable
  have hfm := h.meas
  have hgm : Measurable fun z : ℝ × ℝ => ENNReal.ofReal (g z.1 z.2) := by
    have e : (fun z : ℝ × ℝ => g z.1 z.2) = fun z : ℝ × ℝ => (if z.1 < z.2 then 1 else 0) *
        ((arrs n (i - 1) (j - i - 1)).card : ℝ) * F z.1 ^ (i - 1) * (F z.2 - F z.1) ^ (j - i - 1) *
        (1 - F z.2) ^ (n - j) * f z.1 * f z.2 := by
      funext z
      exact Except.ok.inj ((hg z.1 z.2).1.symm.trans (pdf_eq hi hij hj f F z.1 z.2))
    have hlt : MeasurableSet {z : ℝ × ℝ | z.1 < z.2} := measurableSet_lt measurable_fst measurable_snd
    have hite : Measurable fun z : ℝ × ℝ => (if z.1 < z.2 then (1 : ℝ) else 0) :=
      Measurable.ite hlt measurable_const measurable_const
    refine Measurable.ennreal_ofReal ?_
    rw [e]
    fun_prop
  have hmO : ∀ k, Measurable fun x => ENNReal.ofReal (Iid.orderStat n k (f x) (F x)) := by
    intro k
    unfold Iid.orderStat
    fun_prop
  refine ⟨g, fun x y => (hg x y).1, ?_, ?_⟩
  · have hmarg : volume.withDensity (fun x => ∫⁻ y, ENNReal.ofReal (g x y)) =
        volume.withDensity fun x => ENNReal.ofReal (Iid.orderStat n i (f x) (F x)) := by
      rw [← hUl]
      ext S hS
      have : P.map U S = P.map (fun ω => (U ω, V ω)) (S ×ˢ univ) := by
        rw [Measure.map_apply hUm hS, Measure.map_apply (hUm.prodMk hVm) (hS.prod MeasurableSet.univ)]
        congr 1
        ext ω; simp
      rw [this, hjoint, withDensity_apply _ (hS.prod MeasurableSet.univ), withDensity_apply _ hS,
        Measure.volume_eq_prod, ← Measure.prod_restrict, Measure.restrict_univ,
        lintegral_prod _ hgm.aemeasurable]
    have hm : Measurable fun x => ∫⁻ y, ENNReal.ofReal (g x y) := hgm.lintegral_prod_right'
    have e := (withDensity_eq_iff_of_sigmaFinite hm.aemeasurable (hmO i).aemeasurable).1 hmarg
    filter_upwards [e] with x hx using hx
  · have hmarg : volume.withDensity (fun y => ∫⁻ x, ENNReal.ofReal (g x y)) =
        volume.withDensity fun y => ENNReal.ofReal (Iid.orderStat n j (f y) (F y)) := by
      rw [← hVl]
      ext S hS
      have : P.map V S = P.map (fun ω => (U ω, V ω)) (univ ×ˢ S) := by
        rw [Measure.map_apply hVm hS, Measure.map_apply (hUm.prodMk hVm) (MeasurableSet.univ.prod hS)]
        congr 1
        ext ω; simp
      rw [this, hjoint, withDensity_apply _ (MeasurableSet.univ.prod hS), withDensity_apply _ hS,
        Measure.volume_eq_prod, ← Measure.prod_restrict, Measure.restrict_univ,
        lintegral_prod_symm _ hgm.aemeasurable]
    have hm : Measurable fun y => ∫⁻ x, ENNReal.ofReal (g x y) := hgm.lintegral_prod_left'
    have e := (withDensity_eq_iff_of_sigmaFinite hm.aemeasurable (hmO j).aemeasurable).1 hmarg
    filter_upwards [e] with x hx using hx

/-- **C76, rejection.** Any other choice of ranks is rejected when the object is built. -/
theorem C76_reject (n i j : ℕ) (hbad : ¬ (1 ≤ i ∧ i < j ∧ j ≤ n)) : create n i j = .error .assertion := by
  unfold create
  rw [if_neg hbad]

/-! ### Non-vacuity -/

/-- the uniform law on [0, 1] -/
theorem unif_describes : Describes (fun x => if x ∈ Icc (0 : ℝ) 1 then 1 else 0) (fun x => max 0 (min x 1))
    (volume.withDensity fun x => ENNReal.ofReal (if x ∈ Icc (0 : ℝ) 1 then 1 else 0)) where
  meas := Measurable.ite measurableSet_Icc measurable_const measurable_const
  nonneg x := by split_ifs <;> norm_num
  law := rfl
  cdf x := by
    rw [withDensity_apply _ measurableSet_Iic]
    have : ∀ x : ℝ, ENNReal.ofReal (if x ∈ Icc (0 : ℝ) 1 then 1 else 0) = (Icc (0 : ℝ) 1).indicator 1 x := by
      intro x
      by_cases hx : x ∈ Icc (0 : ℝ) 1
      · rw [if_pos hx, indicator_of_mem hx]; simp
      · rw [if_neg hx, indicator_of_notMem hx]; simp
    simp only [this]
    rw [lintegral_indicator_one measurableSet_Icc, Measure.restrict_apply measurableSet_Icc]
    have e : Icc (0 : ℝ) 1 ∩ Iic x = Icc 0 (min x 1) := by
      ext y
      simp only [mem_inter_iff, mem_Icc, mem_Iic, le_min_iff]
      tauto
    rw [e, Real.volume_Icc, sub_zero, ENNReal.toReal_ofReal']
    exact max_comm _ _

/-- the law of the smallest and the largest of three uniform numbers: density `6 (y - x)` for `x < y` -/
example : ∃ g : ℝ → ℝ → ℝ, g (1 / 4) (3 / 4) = 3 ∧
    ∀ x y, pdf 3 1 3 (fun x => if x ∈ Icc (0 : ℝ) 1 then 1 else 0) (fun x => max 0 (min x 1)) x y =
      .ok (g x y) := by
  refine ⟨_, ?_, fun x y => pdf_eq (by norm_num) (by norm_num) (by norm_num) _ _ x y⟩
  rw [card_arrs]
  norm_num [Nat.choose]

/-- the theorem applies to the uniform law and any sample size -/
example : IsProbabilityMeasure
    (volume.withDensity fun x : ℝ => ENNReal.ofReal (if x ∈ Icc (0 : ℝ) 1 then 1 else 0)) := by
  constructor
  rw [withDensity_apply _ MeasurableSet.univ, setLIntegral_univ]
  have : ∀ x : ℝ, ENNReal.ofReal (if x ∈ Icc (0 : ℝ) 1 then 1 else 0) = (Icc (0 : ℝ) 1).indicator 1 x := by
    intro x
    by_cases hx : x ∈ Icc (0 : ℝ) 1
    · rw [if_pos hx, indicator_of_mem hx]; simp
    · rw [if_neg hx, indicator_of_notMem hx]; simp
  simp only [this]
  rw [lintegral_indicator_one measurableSet_Icc, Real.volume_Icc]
  simp

example : IsKth (![3, 1, 2] : Fin 3 → ℝ) 2 2 := by
  refine ⟨⟨2, rfl⟩, ?_, ?_⟩
  · have : (Finset.univ.filter fun m => (![3, 1, 2] : Fin 3 → ℝ) m < 2) = {1} := by
      ext m; fin_cases m <;> norm_num
    rw [this]; simp
  · have : (Finset.univ.filter fun m => (![3, 1, 2] : Fin 3 → ℝ) m ≤ 2) = {1, 2} := by
      ext m; fin_cases m <;> norm_num <;> decide
    rw [this]; rfl

end Order
end Pacal
