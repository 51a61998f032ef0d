import Verif.Sample.Lem
import Verif.Conv.Spec
import Mathlib.Probability.Independence.Basic

/-! The law of single samples of an operation -/

namespace Pacal.Sample
open MeasureTheory ProbabilityTheory

/-- the random array of `n` samples: `X j ω` is the `j`-th one -/
def samples {Ω : Type*} {n : ℕ} (X : Fin n → Ω → ℝ) (ω : Ω) : List ℝ := List.ofFn fun j => X j ω

theorem fn_measurable (o : Op2) : Measurable fun p : ℝ × ℝ => o.fn p.1 p.2 := by
  cases o <;> simp only [Op2.fn] <;> fun_prop

/-- the law of each sample -/
theorem sample_law (o : Op2) {Ω : Type*} [MeasurableSpace Ω] (p : Measure Ω) [IsProbabilityMeasure p] {n : ℕ} {X Y : Fin n → Ω → ℝ}
    (hX : ∀ j, Measurable (X j)) (hY : ∀ j, Measurable (Y j)) (hi : ∀ j, IndepFun (X j) (Y j) p) (j : Fin n) :
    p.map (fun ω => (o.rand (samples X ω) (samples Y ω)).getD j 0) = opLaw o.fn (p.map (X j)) (p.map (Y j)) := by
  have h : (fun ω => (o.rand (samples X ω) (samples Y ω)).getD j 0) = (fun p : ℝ × ℝ => o.fn p.1 p.2) ∘ fun ω => (X j ω, Y j ω) := by
    funext ω
    rw [samples, samples, List.ofFn_eq_map, List.ofFn_eq_map, rand2_map, ← List.ofFn_eq_map]
    simp
  rw [h, ← Measure.map_map (fn_measurable o) ((hX j).prodMk (hY j)),
    (indepFun_iff_map_prod_eq_prod_map_map (hX j).aemeasurable (hY j).aemeasurable).1 (hi j)]
  rfl

end Pacal.Sample
