import Mathlib.Probability.Independence.Basic
import Mathlib.MeasureTheory.Constructions.Pi
import Mathlib.MeasureTheory.Measure.Prod
import Mathlib.MeasureTheory.Constructions.BorelSpace.Order

/-! Probability that the values at given positions satisfy a condition and the remaining, independent
values fall into sets that depend on the former. -/

open MeasureTheory ProbabilityTheory Set
open scoped ENNReal

namespace Pacal
namespace Order

theorem cells {Ω β ι : Type*} [MeasurableSpace Ω] [MeasurableSpace β] [Fintype ι] {P : Measure Ω}
    [IsProbabilityMeasure P] {μ : Measure ℝ} [IsProbabilityMeasure μ] {X : ι → Ω → ℝ}
    (hX : ∀ k, Measurable (X k)) (hind : iIndepFun X P) (hlaw : ∀ k, P.map (X k) = μ)
    (T : Finset ι) {Z : Ω → β} (hZ : Measurable Z)
    (hZT : IndepFun Z (fun ω (k : T) => X k ω) P) {S : Set β} (hS : MeasurableSet S)
    (I : T → β → Set ℝ) (hI : ∀ k, MeasurableSet {w : β × ℝ | w.2 ∈ I k w.1}) :
    P {ω | Z ω ∈ S ∧ ∀ k : T, X k ω ∈ I k (Z ω)} = ∫⁻ z in S, ∏ k : T, μ (I k z) ∂(P.map Z) := by
  have hXT : Measurable (fun ω (k : T) => X k ω) := measurable_pi_lambda _ fun k => hX k
  have hpi : P.map (fun ω (k : T) => X k ω) = Measure.pi fun _ : T => μ := by
    have := (iIndepFun_iff_map_fun_eq_pi_map (fun k : T => (hX k).aemeasurable)).1
      (hind.precomp Subtype.val_injective)
    rw [this]
    congr 1
    funext k
    exact hlaw k
  have hjoint : P.map (fun ω => (Z ω, fun k : T => X k ω)) = (P.map Z).prod (Measure.pi fun _ : T => μ) := by
    rw [← hpi]
    exact (indepFun_iff_map_prod_eq_prod_map_map hZ.aemeasurable hXT.aemeasurable).1 hZT
  have hG : MeasurableSet {w : β × (T → ℝ) | w.1 ∈ S ∧ ∀ k, w.2 k ∈ I k w.1} := by
    have : {w : β × (T → ℝ) | w.1 ∈ S ∧ ∀ k, w.2 k ∈ I k w.1} =
        Prod.fst ⁻¹' S ∩ ⋂ k, (fun w : β × (T → ℝ) => (w.1, w.2 k)) ⁻¹' {w : β × ℝ | w.2 ∈ I k w.1} := by
      ext w; simp
    rw [this]
    refine (measurable_fst hS).inter (MeasurableSet.iInter fun k => ?_)
    exact (measurable_fst.prodMk ((measurable_pi_apply k).comp measurable_snd)) (hI k)
  have hev : {ω | Z ω ∈ S ∧ ∀ k : T, X k ω ∈ I k (Z ω)} =
      (fun ω => (Z ω, fun k : T => X k ω)) ⁻¹' {w : β × (T → ℝ) | w.1 ∈ S ∧ ∀ k, w.2 k ∈ I k w.1} := rfl
  have : IsProbabilityMeasure (P.map Z) := Measure.isProbabilityMeasure_map hZ.aemeasurable
  rw [hev, ← Measure.map_apply (hZ.prodMk hXT) hG, hjoint, Measure.prod_apply hG, ← lintegral_indicator hS]
  refine lintegral_congr fun z => ?_
  by_cases hz : z ∈ S
  · rw [indicator_of_mem hz, ← Measure.pi_pi]
    congr 1
    ext w
    simp [hz, Set.mem_pi]
  · rw [indicator_of_notMem hz]
    convert measure_empty (μ := Measure.pi fun _ : T => μ)
    ext w
    simp [hz]

end Order
end Pacal
