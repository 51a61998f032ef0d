import Verif.Sample.Props
import Verif.Sample.SpecTree
import Verif.Identity.PropsExact
import Mathlib.Probability.Independence.InfinitePi

/-!
# Property C107, the law of samples of whole expressions

`Expr.law` is the law of an expression with independent arguments at every operation, `Expr.Separate` says that no variable occurs in both
arguments of an operation (`LemTree`), `Reads μ e e'` that `e'` is the expression `e` with variables of the laws `μ` (`SpecTree`).
-/

namespace Pacal.Sample
open MeasureTheory ProbabilityTheory Identity

/-- **C107, law of the samples with any sharing of variables** (partial: sines and cosines of arguments within one period).  If the `j`-th
samples of the variables are independent, the `j`-th sample of the expression follows the law of its value under the product of the laws
of the variables. -/
theorem C107_shared_partial {Ω : Type*} [MeasurableSpace Ω] {p : Measure Ω} [IsProbabilityMeasure p] {n : ℕ} {D : ℕ → Fin n → Ω → ℝ}
    (hD : ∀ i j, Measurable (D i j)) (hi : ∀ j, iIndepFun (fun i => D i j) p) {e : Expr}
    (hd : ∀ᵐ ω ∂p, ∀ j, e.Defined fun i => D i j ω) (j : Fin n) :
    p.map (fun ω => (e.rand fun i => List.ofFn fun j => D i j ω).getD j 0) =
      (Measure.infinitePi fun i => p.map (D i j)).map fun v => e.value v := by
  rw [← (hi j).map_fun_eq_infinitePi_map fun i => hD i j,
    Measure.map_map (value_measurable e) (measurable_pi_lambda _ fun i => hD i j)]
  refine Measure.map_congr (hd.mono fun ω hω => ?_)
  show (e.rand fun i => List.ofFn fun j => D i j ω).getD j 0 = _
  rw [C107_samples_partial e (fun i j => D i j ω) hω]
  simp

/-- **C107, independence of the samples** (partial: sines and cosines of arguments within one period).  If the draws of all variables with
different `j` are independent, the samples of the expression are independent. -/
theorem C107_independent_partial {Ω : Type*} [MeasurableSpace Ω] {p : Measure Ω} {n : ℕ} {D : ℕ → Fin n → Ω → ℝ}
    (hi : iIndepFun (fun j ω i => D i j ω) p) {e : Expr} (hd : ∀ᵐ ω ∂p, ∀ j, e.Defined fun i => D i j ω) :
    iIndepFun (fun (j : Fin n) ω => (e.rand fun i => List.ofFn fun j => D i j ω).getD j 0) p := by
  refine (hi.comp (fun _ v => e.value v) fun _ => value_measurable e).congr fun j => hd.mono fun ω hω => ?_
  show e.value (fun i => D i j ω) = (e.rand fun i => List.ofFn fun j => D i j ω).getD j 0
  rw [C107_samples_partial e (fun i j => D i j ω) hω]
  simp

/-- **C107, law of the samples of an expression** (partial: sines and cosines of arguments within one period; every variable on one side
of each operation).  If the `j`-th samples of the variables are independent, the `j`-th sample of the expression follows the law of the
expression. -/
theorem C107_tree_partial {Ω : Type*} [MeasurableSpace Ω] {p : Measure Ω} [IsProbabilityMeasure p] {n : ℕ} {D : ℕ → Fin n → Ω → ℝ}
    (hD : ∀ i j, Measurable (D i j)) (hi : ∀ j, iIndepFun (fun i => D i j) p) {e : Expr} (he : e.Separate)
    (hd : ∀ᵐ ω ∂p, ∀ j, e.Defined fun i => D i j ω) (j : Fin n) :
    p.map (fun ω => (e.rand fun i => List.ofFn fun j => D i j ω).getD j 0) = e.law fun i => p.map (D i j) := by
  rw [← value_law (fun i => hD i j) (hi j) he]
  refine Measure.map_congr (hd.mono fun ω hω => ?_)
  show (e.rand fun i => List.ofFn fun j => D i j ω).getD j 0 = _
  rw [C107_samples_partial e (fun i j => D i j ω) hω]
  simp

/-- **C107, samples follow the computed density** (partial: as C68, and every variable on one side of each operation).  If the samples of
the variables are independent and follow their distributions, every sample of the expression follows the density computed for the
expression. -/
theorem C107_computed_partial {M : Machine} (hM : MachineOK M) {e : Identity.Expr} (hok : ExprOK M e) {Ω : Type*} [MeasurableSpace Ω]
    {p : Measure Ω} [IsProbabilityMeasure p] {n : ℕ} {D : ℕ → Fin n → Ω → ℝ} (hD : ∀ i j, Measurable (D i j))
    (hi : ∀ j, iIndepFun (fun i => D i j) p) {e' : Expr} (hr : ∀ j, Reads (fun i => p.map (D i j)) e e') (he : e'.Separate)
    (hd : ∀ᵐ ω ∂p, ∀ j, e'.Defined fun i => D i j ω) :
    ∃ r, e.run M = some r ∧ ∀ j : Fin n, p.map (fun ω => (e'.rand fun i => List.ofFn fun j => D i j ω).getD j 0) = PF.law r := by
  obtain ⟨r, h1, -, -, h2⟩ := C68_expression_partial hM hok
  refine ⟨r, h1, fun j => ?_⟩
  rw [C107_tree_partial hD hi he hd, reads_law (hr j), h2]

/-- the laws of the variables of `max(min(N(0,1) + D, 1), 0)` -/
noncomputable def exLaws : ℕ → Measure ℝ
  | 0 => exprLaw (.dist (.normal 0 1))
  | 1 => exprLaw (.discrete [(1, 1 / 2), (0, 1 / 2)])
  | 2 => exprLaw (.discrete [(1, 1)])
  | _ => exprLaw (.discrete [(0, 1)])

/-- `max(min(N(0,1) + D, 1), 0)` as a sampled expression -/
def exSampled : Expr := .two .max (.two .min (.two .sum (.var 0) (.var 1)) (.var 2)) (.var 3)

theorem exLaws_prob (i : ℕ) : IsProbabilityMeasure (exLaws i) := by
  match i with
  | 0 => exact expr_prob (M := ideal) (defined_ok ideal_ok (by norm_num [Defined, Standard.Kind.Valid, Identity.Exact])).1
  | 1 => exact expr_prob (M := ideal) (defined_ok ideal_ok (by norm_num [Defined, TableOK])).1
  | 2 => exact expr_prob (M := ideal) (defined_ok ideal_ok (by norm_num [Defined, TableOK])).1
  | _ + 3 => exact expr_prob (M := ideal) (defined_ok ideal_ok (by norm_num [Defined, TableOK])).1

/-- samples of `X² - X` with a shared standard normal variable: the law of `x² - x` -/
example : (Measure.infinitePi exLaws).map
    (fun ω : ℕ → ℝ => ((Expr.two .sub (.one .square (.var 0)) (.var 0)).rand fun i => List.ofFn fun _ : Fin 1 => ω i).getD 0 0) =
    (exprLaw (.dist (.normal 0 1))).map fun x => x ^ 2 - x := by
  have := exLaws_prob
  have hm (i : ℕ) : (Measure.infinitePi exLaws).map (fun ω => ω i) = exLaws i := (measurePreserving_eval_infinitePi exLaws i).map_eq
  refine (C107_shared_partial (p := Measure.infinitePi exLaws) (D := fun i (_ : Fin 1) ω => ω i) (fun i _ => measurable_pi_apply i)
    (fun _ => iIndepFun_infinitePi (X := fun _ x => x) fun _ => measurable_id) (e := .two .sub (.one .square (.var 0)) (.var 0))
    (by simp [Expr.Defined, Op1.Defined]) 0).trans ?_
  simp only [hm]
  show _ = (exLaws 0).map _
  rw [← hm 0]
  exact (Measure.map_map (f := fun ω : ℕ → ℝ => ω 0) (g := fun x : ℝ => x ^ 2 - x) (by fun_prop) (measurable_pi_apply 0)).symm

/-- three samples of `X² - X` with a standard normal variable are independent -/
example : iIndepFun (fun (j : Fin 3) (ω : Fin 3 → ℕ → ℝ) =>
    ((Expr.two .sub (.one .square (.var 0)) (.var 0)).rand fun i => List.ofFn fun j => ω j i).getD j 0)
    (Measure.infinitePi fun _ : Fin 3 => Measure.infinitePi exLaws) := by
  have := exLaws_prob
  exact C107_independent_partial (D := fun i (j : Fin 3) (ω : Fin 3 → ℕ → ℝ) => ω j i)
    (iIndepFun_infinitePi (X := fun _ v => v) fun _ => measurable_id) (e := .two .sub (.one .square (.var 0)) (.var 0))
    (by simp [Expr.Defined, Op1.Defined])

/-- one sample of `max(min(N(0,1) + D, 1), 0)` from independent samples -/
example : ∃ r, exMixed.run ideal = some r ∧ ∃ p : Measure (ℕ → ℝ), IsProbabilityMeasure p ∧ ∀ j : Fin 1,
    p.map (fun ω => (exSampled.rand fun i => List.ofFn fun _ : Fin 1 => ω i).getD j 0) = PF.law r := by
  have := exLaws_prob
  have hm (i : ℕ) : (Measure.infinitePi exLaws).map (fun ω => ω i) = exLaws i := (measurePreserving_eval_infinitePi exLaws i).map_eq
  obtain ⟨r, h1, h2⟩ := C107_computed_partial (M := ideal) ideal_ok.toMachineOK (defined_ok ideal_ok (exMixed_ok _)).1
    (p := Measure.infinitePi exLaws) (D := fun i (_ : Fin 1) ω => ω i) (fun i _ => measurable_pi_apply i)
    (fun _ => iIndepFun_infinitePi (X := fun _ x => x) fun _ => measurable_id) (e' := exSampled)
    (fun _ => by
      simp only [hm]
      exact .max (.min (.add (.dist _ 0 rfl) (.discrete _ 1 rfl)) (.discrete _ 2 rfl)) (.discrete _ 3 rfl))
    (by simp [exSampled, Expr.Separate, Expr.vars]) (by simp [exSampled, Expr.Defined])
  exact ⟨r, h1, _, inferInstance, h2⟩

end Pacal.Sample
