import Verif.Sample.LemLaw
import Mathlib.MeasureTheory.Function.SpecialFunctions.Basic
import Mathlib.MeasureTheory.Function.SpecialFunctions.Arctan

/-! The law of expressions whose operations have arguments in different variables -/

namespace Pacal.Sample
open MeasureTheory ProbabilityTheory

/-- the law of an expression in which the arguments of every operation are independent, for given laws of the variables -/
noncomputable def Expr.law (μ : ℕ → Measure ℝ) : Expr → Measure ℝ
  | .var i => μ i
  | .one o e => (e.law μ).map o.fn
  | .two o e e' => opLaw o.fn (e.law μ) (e'.law μ)

/-- the variables of an expression -/
def Expr.vars : Expr → Finset ℕ
  | .var i => {i}
  | .one _ e => e.vars
  | .two _ e e' => e.vars ∪ e'.vars

/-- no variable occurs in both arguments of an operation -/
def Expr.Separate : Expr → Prop
  | .var _ => True
  | .one _ e => e.Separate
  | .two _ e e' => e.Separate ∧ e'.Separate ∧ Disjoint e.vars e'.vars

theorem fn1_measurable (o : Op1) : Measurable o.fn := by
  cases o with
  | tan =>
    show Measurable fun x => Real.tan x
    simp only [Real.tan_eq_sin_div_cos]
    fun_prop
  | tanh =>
    show Measurable fun x => Real.tanh x
    simp only [Real.tanh_eq_sinh_div_cosh]
    fun_prop
  | atan => exact Real.measurable_arctan
  | abs => exact measurable_norm
  | _ => unfold Op1.fn; fun_prop

theorem value_measurable (e : Expr) : Measurable fun v : ℕ → ℝ => e.value v := by
  induction e with
  | var i => exact measurable_pi_apply i
  | one o e ih => exact (fn1_measurable o).comp ih
  | two o e e' ih ih' => exact (fn_measurable o).comp (ih.prodMk ih')

theorem value_congr (e : Expr) {v w : ℕ → ℝ} (h : ∀ i ∈ e.vars, v i = w i) : e.value v = e.value w := by
  induction e with
  | var i => exact h i (by simp [Expr.vars])
  | one o e ih => simp only [Expr.value]; rw [ih h]
  | two o e e' ih ih' =>
    simp only [Expr.value]
    rw [ih fun i hi => h i (Finset.mem_union_left _ hi), ih' fun i hi => h i (Finset.mem_union_right _ hi)]

/-- a function of the variables that occur -/
theorem value_restrict (e : Expr) : ∃ φ : (e.vars → ℝ) → ℝ, Measurable φ ∧ ∀ v : ℕ → ℝ, e.value v = φ fun i => v i := by
  classical
  refine ⟨fun w => e.value fun i => if h : i ∈ e.vars then w ⟨i, h⟩ else 0, (value_measurable e).comp (measurable_pi_lambda _ fun i => ?_),
    fun v => value_congr e fun i hi => by simp [hi]⟩
  by_cases h : i ∈ e.vars
  · simpa [h] using measurable_pi_apply _
  · simp [h]

theorem value_law {Ω : Type*} [MeasurableSpace Ω] {p : Measure Ω} [IsProbabilityMeasure p] {V : ℕ → Ω → ℝ} (hV : ∀ i, Measurable (V i))
    (hi : iIndepFun V p) {e : Expr} (he : e.Separate) : p.map (fun ω => e.value fun i => V i ω) = e.law fun i => p.map (V i) := by
  have hm (e : Expr) : Measurable fun ω => e.value fun i => V i ω := (value_measurable e).comp (measurable_pi_lambda _ hV)
  induction e with
  | var i => rfl
  | one o e ih =>
    rw [Expr.law, ← ih he, Measure.map_map (fn1_measurable o) (hm e)]
    rfl
  | two o e e' ih ih' =>
    obtain ⟨h1, h2, h3⟩ := he
    have hind : IndepFun (fun ω => e.value fun i => V i ω) (fun ω => e'.value fun i => V i ω) p := by
      obtain ⟨φ, m1, e1⟩ := value_restrict e
      obtain ⟨ψ, m2, e2⟩ := value_restrict e'
      simp only [e1, e2]
      exact (hi.indepFun_finset _ _ h3 hV).comp m1 m2
    rw [Expr.law, ← ih h1, ← ih' h2, opLaw,
      ← (indepFun_iff_map_prod_eq_prod_map_map (hm e).aemeasurable (hm e').aemeasurable).1 hind,
      Measure.map_map (fn_measurable o) ((hm e).prodMk (hm e'))]
    rfl

end Pacal.Sample
