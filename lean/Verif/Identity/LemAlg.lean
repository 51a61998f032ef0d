import Verif.Identity.SpecAlg
import Verif.Identity.LemTwo

/-!
Lemmas for `Verif.Identity.PropsAlg`: functions of independent variables.
-/

namespace Pacal.Identity
open MeasureTheory ProbabilityTheory Standard Set Real

theorem kind_sfinite (k : Kind) : SFinite (kindLaw k) := by
  cases k <;> simp only [kindLaw, Textbook.law, gammaMeasure, expMeasure, betaMeasure, paretoMeasure, ProbabilityTheory.cond] <;> infer_instance

theorem expr_sfinite : ∀ e : Expr, SFinite (exprLaw e)
  | .dist k => kind_sfinite k
  | .discrete t => by
    rw [exprLaw]
    induction t with
    | nil => simp only [List.map_nil, List.sum_nil]; infer_instance
    | cons p t ih => simp only [List.map_cons, List.sum_cons]; infer_instance
  | .step s e => by have := expr_sfinite e; rw [exprLaw]; infer_instance
  | .add a b | .sub a b | .mul a b | .div a b | .min a b | .max a b => by
    have := expr_sfinite a; have := expr_sfinite b; rw [exprLaw, opLaw]; infer_instance

variable {μ ν ρ : Measure ℝ} [SFinite μ] [SFinite ν] [SFinite ρ]

/-- functions of both arguments -/
theorem op_fun {op op' : ℝ → ℝ → ℝ} {g h k : ℝ → ℝ} (hop : Measurable fun p : ℝ × ℝ => op p.1 p.2)
    (hop' : Measurable fun p : ℝ × ℝ => op' p.1 p.2) (hg : Measurable g) (hh : Measurable h) (hk : Measurable k)
    (he : ∀ x y, op (g x) (h y) = k (op' x y)) : (opLaw op' μ ν).map k = opLaw op (μ.map g) (ν.map h) := by
  rw [opLaw, opLaw, Measure.map_prod_map _ _ hg hh, Measure.map_map hop (hg.prodMap hh), Measure.map_map hk hop']
  congr 1
  ext p
  exact (he _ _).symm

theorem op_right {op op' : ℝ → ℝ → ℝ} {h : ℝ → ℝ} (hop : Measurable fun p : ℝ × ℝ => op p.1 p.2)
    (hop' : Measurable fun p : ℝ × ℝ => op' p.1 p.2) (hh : Measurable h) (he : ∀ x y, op x (h y) = op' x y) :
    opLaw op' μ ν = opLaw op μ (ν.map h) := by
  have := op_fun (μ := μ) (ν := ν) hop hop' measurable_id hh measurable_id he
  rwa [Measure.map_id, Measure.map_id] at this

theorem op_out {op op' : ℝ → ℝ → ℝ} {k : ℝ → ℝ} (hop : Measurable fun p : ℝ × ℝ => op p.1 p.2)
    (hop' : Measurable fun p : ℝ × ℝ => op' p.1 p.2) (hk : Measurable k) (he : ∀ x y, op x y = k (op' x y)) :
    (opLaw op' μ ν).map k = opLaw op μ ν := by
  have := op_fun (μ := μ) (ν := ν) hop hop' measurable_id measurable_id hk he
  rwa [Measure.map_id, Measure.map_id] at this

theorem op_swap {op op' : ℝ → ℝ → ℝ} (hop : Measurable fun p : ℝ × ℝ => op p.1 p.2) (he : ∀ x y, op' y x = op x y) :
    opLaw op μ ν = opLaw op' ν μ := by
  rw [opLaw, opLaw, ← Measure.prod_swap, Measure.map_map hop measurable_swap]
  congr 1
  ext p
  exact (he _ _).symm

theorem op_assoc {op₁ op₂ op₃ op₄ : ℝ → ℝ → ℝ} (h₁ : Measurable fun p : ℝ × ℝ => op₁ p.1 p.2)
    (h₂ : Measurable fun p : ℝ × ℝ => op₂ p.1 p.2) (h₃ : Measurable fun p : ℝ × ℝ => op₃ p.1 p.2)
    (h₄ : Measurable fun p : ℝ × ℝ => op₄ p.1 p.2) (he : ∀ x y z, op₁ (op₂ x y) z = op₃ x (op₄ y z)) :
    opLaw op₁ (opLaw op₂ μ ν) ρ = opLaw op₃ μ (opLaw op₄ ν ρ) := by
  have e1 : (opLaw op₂ μ ν).prod ρ = ((μ.prod ν).prod ρ).map (Prod.map (fun p : ℝ × ℝ => op₂ p.1 p.2) id) := by
    rw [← Measure.map_prod_map _ _ h₂ measurable_id, Measure.map_id]; rfl
  have e2 : μ.prod (opLaw op₄ ν ρ) = (μ.prod (ν.prod ρ)).map (Prod.map id fun p : ℝ × ℝ => op₄ p.1 p.2) := by
    rw [← Measure.map_prod_map _ _ measurable_id h₄, Measure.map_id]; rfl
  have m1 : Measurable (Prod.map (fun p : ℝ × ℝ => op₂ p.1 p.2) (id : ℝ → ℝ)) := h₂.prodMap measurable_id
  have m2 : Measurable (Prod.map (id : ℝ → ℝ) fun p : ℝ × ℝ => op₄ p.1 p.2) := measurable_id.prodMap h₄
  show ((opLaw op₂ μ ν).prod ρ).map (fun p => op₁ p.1 p.2) = (μ.prod (opLaw op₄ ν ρ)).map fun p => op₃ p.1 p.2
  rw [e1, e2, Measure.map_map h₁ m1, Measure.map_map h₃ m2, ← Measure.prodAssoc_prod,
    Measure.map_map (h₃.comp m2) MeasurableEquiv.prodAssoc.measurable]
  congr 1
  ext ⟨⟨x, y⟩, z⟩
  exact he x y z

theorem step_step (μ : Measure ℝ) {s t : Step} {u : ℝ → ℝ} (he : ∀ x, stepFn s (stepFn t x) = u x) :
    (μ.map (stepFn t)).map (stepFn s) = μ.map u := by
  rw [Measure.map_map (measurable_fn _) (measurable_fn _)]
  congr 1
  ext x
  exact he x

end Pacal.Identity
