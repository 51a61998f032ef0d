import Verif.Depend.Model
import Verif.Depend.Spec
import Mathlib.MeasureTheory.Integral.Prod
import Mathlib.MeasureTheory.Measure.WithDensity
import Mathlib.MeasureTheory.Integral.IntervalIntegral.Basic
import Mathlib.MeasureTheory.Constructions.BorelSpace.Order
import Mathlib.MeasureTheory.Measure.Haar.OfBasis

/-!
Helper lemmas: the iterated integrals are expectations.
-/

open MeasureTheory ProbabilityTheory Set

namespace Pacal.Depend

variable {Ω : Type*} [MeasurableSpace Ω] {P : Measure Ω}

theorem le_of_ae [IsProbabilityMeasure P] {X : Ω → ℝ} {a b : ℝ} (h : ∀ᵐ ω ∂P, X ω ∈ Icc a b) : a ≤ b := by
  obtain ⟨ω, hω⟩ := h.exists
  exact hω.1.trans hω.2

theorem iter_eq [IsProbabilityMeasure P] {p : ℝ → ℝ → ℝ} {X Y : Ω → ℝ} (h : HasDensity p P X Y) {F : ℝ → ℝ → ℝ}
    (hF : Measurable fun z : ℝ × ℝ => F z.1 z.2) (hi : Integrable (fun ω => F (X ω) (Y ω)) P) {a1 b1 a2 b2 : ℝ}
    (hX : ∀ᵐ ω ∂P, X ω ∈ Icc a1 b1) (hY : ∀ᵐ ω ∂P, Y ω ∈ Icc a2 b2) :
    integrateIter (fun x y => F x y * p x y) a1 b1 a2 b2 = ∫ ω, F (X ω) (Y ω) ∂P := by
  have hm : Measurable fun ω => (X ω, Y ω) := h.meas.1.prodMk h.meas.2
  have hS : MeasurableSet (Icc a1 b1 ×ˢ Icc a2 b2) := measurableSet_Icc.prod measurableSet_Icc
  have hd : Measurable fun z : ℝ × ℝ => ENNReal.ofReal (p z.1 z.2) := h.pmeas.ennreal_ofReal
  have hi' : Integrable (fun z : ℝ × ℝ => F z.1 z.2) (P.map fun ω => (X ω, Y ω)) :=
    (integrable_map_measure hF.aestronglyMeasurable hm.aemeasurable).2 hi
  have hae : ∀ᵐ z ∂P.map fun ω => (X ω, Y ω), z ∈ Icc a1 b1 ×ˢ Icc a2 b2 := by
    refine (ae_map_iff (p := fun z => z ∈ Icc a1 b1 ×ˢ Icc a2 b2) hm.aemeasurable hS).2 ?_
    filter_upwards [hX, hY] with ω h1 h2 using ⟨h1, h2⟩
  have e1 : ∫ ω, F (X ω) (Y ω) ∂P = ∫ z in Icc a1 b1 ×ˢ Icc a2 b2, p z.1 z.2 * F z.1 z.2 := by
    rw [← integral_map hm.aemeasurable hF.aestronglyMeasurable (f := fun z : ℝ × ℝ => F z.1 z.2),
      ← setIntegral_eq_integral_of_ae_compl_eq_zero (s := Icc a1 b1 ×ˢ Icc a2 b2)
        (by filter_upwards [hae] with z hz hn using absurd hz hn), h.law,
      setIntegral_withDensity_eq_setIntegral_toReal_smul hd (by simp) _ hS]
    refine setIntegral_congr_fun hS fun z _ => ?_
    simp only [ENNReal.toReal_ofReal (h.nonneg z.1 z.2), smul_eq_mul]
  have hint : IntegrableOn (fun z : ℝ × ℝ => p z.1 z.2 * F z.1 z.2) (Icc a1 b1 ×ˢ Icc a2 b2) := by
    rw [h.law, integrable_withDensity_iff_integrable_smul' hd (by simp)] at hi'
    refine (hi'.integrableOn (s := Icc a1 b1 ×ˢ Icc a2 b2)).congr_fun (fun z _ => ?_) hS
    simp only [ENNReal.toReal_ofReal (h.nonneg z.1 z.2), smul_eq_mul]
  rw [e1, integrateIter, intervalIntegral.integral_of_le (le_of_ae hY), ← integral_Icc_eq_integral_Ioc,
    Measure.volume_eq_prod, ← Measure.prod_restrict, integral_prod_symm]
  · refine setIntegral_congr_fun measurableSet_Icc fun y _ => ?_
    simp only [intervalIntegral.integral_of_le (le_of_ae hX), ← integral_Icc_eq_integral_Ioc, mul_comm]
  · rw [IntegrableOn, Measure.volume_eq_prod, ← Measure.prod_restrict] at hint
    exact hint

/-- variables with bounded range have moments of all orders -/
theorem memLp_of_range [IsProbabilityMeasure P] {X : Ω → ℝ} (hm : Measurable X) {a b : ℝ} (h : ∀ᵐ ω ∂P, X ω ∈ Icc a b) :
    MemLp X 2 P := by
  refine MemLp.of_bound hm.aestronglyMeasurable (max |a| |b|) ?_
  filter_upwards [h] with ω hω
  exact abs_le_max_abs_abs hω.1 hω.2

/-- the covariance does not depend on the number subtracted from the second variable -/
theorem cov_shift [IsProbabilityMeasure P] {X Y : Ω → ℝ} (hX : MemLp X 2 P) (hY : MemLp Y 2 P) (c : ℝ) :
    ∫ ω, (X ω - ∫ w, X w ∂P) * (Y ω - c) ∂P = cov[X, Y; P] := by
  have i1 : Integrable X P := hX.integrable one_le_two
  have i2 : Integrable Y P := hY.integrable one_le_two
  have i3 : Integrable (fun ω => X ω * Y ω) P := hX.integrable_mul hY
  rw [covariance_eq_sub hX hY]
  have : (fun ω => (X ω - ∫ w, X w ∂P) * (Y ω - c)) = fun ω => (X ω * Y ω - c * X ω) - ((∫ w, X w ∂P) * Y ω - (∫ w, X w ∂P) * c) := by
    ext ω; ring
  have j1 : Integrable (fun ω => X ω * Y ω - c * X ω) P := i3.sub (i1.const_mul c)
  have j2 : Integrable (fun ω => (∫ w, X w ∂P) * Y ω - (∫ w, X w ∂P) * c) P := (i2.const_mul _).sub (integrable_const _)
  rw [this, integral_sub j1 j2,
    integral_sub i3 (i1.const_mul c), integral_sub (i2.const_mul _) (integrable_const _), integral_const_mul, integral_const_mul,
    integral_const]
  simp only [Pi.mul_apply, probReal_univ, one_smul]
  ring

theorem cov_integrable [IsProbabilityMeasure P] {X Y : Ω → ℝ} (hX : MemLp X 2 P) (hY : MemLp Y 2 P) (b c : ℝ) :
    Integrable (fun ω => (X ω - b) * (Y ω - c)) P :=
  (hX.sub (memLp_const b)).integrable_mul (hY.sub (memLp_const c))

end Pacal.Depend
