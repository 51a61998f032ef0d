import Verif.Order.LemSingle
import Verif.Order.Model
import Verif.Iid.Lemmas
import Mathlib.MeasureTheory.Measure.Lebesgue.Basic
import Mathlib.MeasureTheory.Measure.WithDensity
import Mathlib.MeasureTheory.Measure.Prod
import Mathlib.MeasureTheory.Constructions.BorelSpace.Real
import Mathlib.Probability.Independence.Basic

/-! From the law of order statistics to the density formulas. -/

open MeasureTheory ProbabilityTheory Set
open scoped ENNReal

namespace Pacal
namespace Order

/-- every sample has a `k`-th smallest value -/
theorem isKth_exists {n : ℕ} (x : Fin n → ℝ) {k : ℕ} (hk : 1 ≤ k) (hkn : k ≤ n) : ∃ v, IsKth x k v := by
  classical
  set s := Finset.univ.filter fun m => k ≤ (Finset.univ.filter fun m' => x m' ≤ x m).card with hs
  have hne0 : (Finset.univ : Finset (Fin n)).Nonempty := ⟨⟨0, by omega⟩, Finset.mem_univ _⟩
  have hne : s.Nonempty := by
    obtain ⟨m, _, hm⟩ := Finset.exists_max_image Finset.univ x hne0
    refine ⟨m, ?_⟩
    rw [hs, Finset.mem_filter]
    refine ⟨Finset.mem_univ _, ?_⟩
    rw [Finset.filter_true_of_mem hm, Finset.card_univ, Fintype.card_fin]
    exact hkn
  obtain ⟨m, hm, hmin⟩ := Finset.exists_min_image s x hne
  refine ⟨x m, ⟨m, rfl⟩, ?_, (Finset.mem_filter.1 hm).2⟩
  by_contra hc
  push Not at hc
  have hne2 : (Finset.univ.filter fun m' => x m' < x m).Nonempty := by
    rw [← Finset.card_pos]; omega
  obtain ⟨m2, hm2, hmax⟩ := Finset.exists_max_image _ x hne2
  have h2 : x m2 < x m := (Finset.mem_filter.1 hm2).2
  have : m2 ∈ s := by
    rw [hs, Finset.mem_filter]
    refine ⟨Finset.mem_univ _, hc.trans (Finset.card_le_card fun m' hm' => ?_)⟩
    exact Finset.mem_filter.2 ⟨Finset.mem_univ _, hmax m' hm'⟩
  exact absurd (hmin m2 this) (not_le.2 h2)

variable {f F : ℝ → ℝ} {μ : Measure ℝ}

section
variable [IsProbabilityMeasure μ] (h : Describes f F μ)
include h

theorem Describes.nullSingleton : NullSingletonClass μ := by
  have := h.law
  rw [this]
  infer_instance

theorem Describes.Iic (x : ℝ) : μ (Iic x) = ENNReal.ofReal (F x) := by
  rw [h.cdf, ENNReal.ofReal_toReal (measure_ne_top _ _)]

theorem Describes.Iio (x : ℝ) : μ (Iio x) = ENNReal.ofReal (F x) := by
  have := h.nullSingleton
  rw [← h.Iic, measure_congr Iio_ae_eq_Iic]

theorem Describes.F_nonneg (x : ℝ) : 0 ≤ F x := by rw [h.cdf]; exact ENNReal.toReal_nonneg

theorem Describes.F_le_one (x : ℝ) : F x ≤ 1 := by
  rw [h.cdf]
  exact ENNReal.toReal_le_of_le_ofReal zero_le_one (by simpa using prob_le_one)

theorem Describes.mono : Monotone F := by
  intro x y hxy
  rw [h.cdf, h.cdf]
  exact ENNReal.toReal_mono (measure_ne_top _ _) (measure_mono (Iic_subset_Iic.2 hxy))

theorem Describes.Ioi (x : ℝ) : μ (Ioi x) = ENNReal.ofReal (1 - F x) := by
  rw [← compl_Iic, prob_compl_eq_one_sub measurableSet_Iic, h.Iic, ENNReal.ofReal_sub _ (h.F_nonneg x),
    ENNReal.ofReal_one]

theorem Describes.Ioo {x y : ℝ} (hxy : x < y) : μ (Ioo x y) = ENNReal.ofReal (F y - F x) := by
  have := h.nullSingleton
  rw [measure_congr Ioo_ae_eq_Ioc, ← Iic_sdiff_Iic, measure_sdiff (Iic_subset_Iic.2 hxy.le)
    measurableSet_Iic.nullMeasurableSet (measure_ne_top _ _), h.Iic, h.Iic,
    ENNReal.ofReal_sub _ (h.F_nonneg x)]

theorem Describes.single_density {n p : ℕ} {S : Set ℝ} (hS : MeasurableSet S) (c : ℕ) :
    (c : ℝ≥0∞) * ∫⁻ z in S, μ (Set.Iio z) ^ p * μ (Set.Ioi z) ^ (n - 1 - p) ∂μ =
      ∫⁻ z in S, ENNReal.ofReal (c * f z * (F z ^ p * (1 - F z) ^ (n - 1 - p))) := by
  have hFm := h.mono.measurable
  have e1 : ∀ z, μ (Set.Iio z) ^ p * μ (Set.Ioi z) ^ (n - 1 - p) =
      ENNReal.ofReal (F z ^ p * (1 - F z) ^ (n - 1 - p)) := by
    intro z
    rw [h.Iio, h.Ioi, ENNReal.ofReal_mul (pow_nonneg (h.F_nonneg z) _), ENNReal.ofReal_pow (h.F_nonneg z),
      ENNReal.ofReal_pow (by linarith [h.F_le_one z])]
  have hm : Measurable fun z => ENNReal.ofReal (F z ^ p * (1 - F z) ^ (n - 1 - p)) := by fun_prop
  have hfm : Measurable fun z => ENNReal.ofReal (f z) := h.meas.ennreal_ofReal
  simp only [e1]
  rw [← lintegral_const_mul _ hm]
  have hl := h.law
  rw [hl, setLIntegral_withDensity_eq_setLIntegral_mul _ hfm (hm.const_mul _) hS]
  refine lintegral_congr fun z => ?_
  simp only [Pi.mul_apply]
  rw [← ENNReal.ofReal_natCast, ← ENNReal.ofReal_mul (Nat.cast_nonneg _), ← ENNReal.ofReal_mul (h.nonneg z)]
  congr 1
  ring

theorem Describes.joint_density {n p q : ℕ} {S : Set (ℝ × ℝ)} (hS : MeasurableSet S) (c : ℕ) :
    (c : ℝ≥0∞) * ∫⁻ z in {z | z ∈ S ∧ z.1 < z.2}, μ (Set.Iio z.1) ^ p * μ (Set.Ioo z.1 z.2) ^ q *
        μ (Set.Ioi z.2) ^ (n - 2 - p - q) ∂(μ.prod μ) =
      ∫⁻ z in S, ENNReal.ofReal ((if z.1 < z.2 then 1 else 0) * c * F z.1 ^ p * (F z.2 - F z.1) ^ q *
        (1 - F z.2) ^ (n - 2 - p - q) * f z.1 * f z.2) := by
  have hFm := h.mono.measurable
  have hfm' := h.meas
  have hlt : MeasurableSet {z : ℝ × ℝ | z.1 < z.2} := measurableSet_lt measurable_fst measurable_snd
  have hS' : MeasurableSet {z : ℝ × ℝ | z ∈ S ∧ z.1 < z.2} := hS.inter hlt
  have hm : Measurable fun z : ℝ × ℝ =>
      ENNReal.ofReal (F z.1 ^ p * (F z.2 - F z.1) ^ q * (1 - F z.2) ^ (n - 2 - p - q)) := by fun_prop
  have e1 : ∀ z ∈ {z : ℝ × ℝ | z ∈ S ∧ z.1 < z.2}, μ (Set.Iio z.1) ^ p * μ (Set.Ioo z.1 z.2) ^ q *
        μ (Set.Ioi z.2) ^ (n - 2 - p - q) =
      ENNReal.ofReal (F z.1 ^ p * (F z.2 - F z.1) ^ q * (1 - F z.2) ^ (n - 2 - p - q)) := by
    rintro z ⟨-, hz⟩
    have hd : 0 ≤ F z.2 - F z.1 := sub_nonneg.2 (h.mono hz.le)
    rw [h.Iio, h.Ioi, h.Ioo hz, ENNReal.ofReal_mul (mul_nonneg (pow_nonneg (h.F_nonneg _) _)
      (pow_nonneg hd _)), ENNReal.ofReal_mul (pow_nonneg (h.F_nonneg _) _), ENNReal.ofReal_pow (h.F_nonneg _),
      ENNReal.ofReal_pow hd, ENNReal.ofReal_pow (by linarith [h.F_le_one z.2])]
  rw [setLIntegral_congr_fun hS' e1, ← lintegral_const_mul _ hm]
  have hfm : Measurable fun z => ENNReal.ofReal (f z) := h.meas.ennreal_ofReal
  have hprod : μ.prod μ = (volume : Measure (ℝ × ℝ)).withDensity
      fun z => ENNReal.ofReal (f z.1) * ENNReal.ofReal (f z.2) := by
    have hl := h.law
    have : SFinite (volume.withDensity fun z => ENNReal.ofReal (f z)) := by rw [← hl]; infer_instance
    rw [hl, prod_withDensity hfm hfm]; rfl
  rw [hprod, setLIntegral_withDensity_eq_setLIntegral_mul _ (by fun_prop) (hm.const_mul _) hS',
    ← lintegral_indicator hS', ← lintegral_indicator hS]
  refine lintegral_congr fun z => ?_
  by_cases hz : z ∈ S
  · by_cases hz2 : z.1 < z.2
    · rw [indicator_of_mem (show z ∈ {z : ℝ × ℝ | z ∈ S ∧ z.1 < z.2} from ⟨hz, hz2⟩), indicator_of_mem hz,
        if_pos hz2]
      simp only [Pi.mul_apply]
      rw [← ENNReal.ofReal_natCast, ← ENNReal.ofReal_mul (Nat.cast_nonneg _),
        ← ENNReal.ofReal_mul (h.nonneg z.1), ← ENNReal.ofReal_mul (mul_nonneg (h.nonneg z.1) (h.nonneg z.2))]
      congr 1
      ring
    · rw [indicator_of_notMem (fun c => hz2 c.2), indicator_of_mem hz, if_neg hz2]
      simp
  · rw [indicator_of_notMem (fun c => hz c.1), indicator_of_notMem hz]

end

/-- the coefficient of the joint density counts the arrangements -/
theorem coeff_eq {n i j : ℕ} (hi : 1 ≤ i) (hij : i < j) (hj : j ≤ n) :
    Iid.multinomialCoeff n [i - 1, 1, j - i - 1, 1, n - j] = .ok ((arrs n (i - 1) (j - i - 1)).card : ℚ) := by
  unfold Iid.multinomialCoeff
  rw [if_pos (by simp only [List.sum_cons, List.sum_nil]; push_cast; omega)]
  have := Iid.multiFold_eq n [i - 1, 1, j - i - 1, 1, n - j] 1 0
    (by simp only [List.sum_cons, List.sum_nil]; omega)
  have hsum : ([i - 1, 1, j - i - 1, 1, n - j] : List ℕ).sum = n := by
    simp only [List.sum_cons, List.sum_nil]; omega
  rw [hsum] at this
  simp only [Nat.sub_zero, Nat.sub_self, Nat.factorial_zero, Nat.cast_one, mul_one, one_mul] at this
  rw [card_arrs]
  congr 1
  obtain ⟨a, rfl⟩ : ∃ a, i = a + 1 := ⟨i - 1, by omega⟩
  obtain ⟨b, rfl⟩ : ∃ b, j = a + 1 + b + 1 := ⟨j - (a + 1) - 1, by omega⟩
  obtain ⟨c, rfl⟩ : ∃ c, n = a + 1 + b + 1 + c := ⟨n - (a + 1 + b + 1), by omega⟩
  have e1 : a + 1 - 1 = a := by omega
  have e2 : a + 1 + b + 1 - (a + 1) - 1 = b := by omega
  have e3 : a + 1 + b + 1 + c - (a + 1 + b + 1) = c := by omega
  have e4 : a + 1 + b + 1 + c - 1 = a + b + c + 1 := by omega
  have e5 : a + 1 + b + 1 + c - 2 = a + (b + c) := by omega
  have e6 : a + (b + c) - a = b + c := by omega
  rw [e1, e2, e3] at this ⊢
  rw [e4, e5, e6]
  have c1 := Nat.add_choose_mul_factorial_mul_factorial a (b + c)
  have c2 := Nat.add_choose_mul_factorial_mul_factorial b c
  have hf : (a + 1 + b + 1 + c).factorial = (a + 1 + b + 1 + c) * ((a + b + c + 1) * (a + (b + c)).factorial) := by
    rw [show a + 1 + b + 1 + c = (a + b + c + 1) + 1 by omega, Nat.factorial_succ,
      show a + b + c + 1 = (a + (b + c)) + 1 by omega, Nat.factorial_succ]
  rw [← Nat.choose_symm_add] at c1 c2
  rw [hf, ← c1, ← c2] at this
  simp only [List.map_cons, List.map_nil, List.prod_cons, List.prod_nil, Nat.factorial_one, mul_one, one_mul]
    at this
  have hne : ((a.factorial * (b.factorial * c.factorial) : ℕ) : ℚ) ≠ 0 := by positivity
  apply mul_right_cancel₀ hne
  rw [this]
  push_cast
  ring

theorem pdf_eq {n i j : ℕ} (hi : 1 ≤ i) (hij : i < j) (hj : j ≤ n) (f F : ℝ → ℝ) (x y : ℝ) :
    pdf n i j f F x y = .ok ((if x < y then 1 else 0) * ((arrs n (i - 1) (j - i - 1)).card : ℝ) *
      F x ^ (i - 1) * (F y - F x) ^ (j - i - 1) * (1 - F y) ^ (n - j) * f x * f y) := by
  unfold pdf create
  rw [if_pos ⟨hi, hij, hj⟩, coeff_eq hi hij hj]
  simp [Bind.bind, Except.bind, Pure.pure, Except.pure]

end Order
end Pacal
