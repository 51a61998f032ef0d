import Verif.Identity.LemAlg
import Verif.Identity.PropsTable

/-!
# C70: transforming expressions

Full statement: transforming an expression of independent variables by the rules of algebra and the identities of the textbooks, at any
place and any number of times, does not change the law of the result.

As for C68 the transformed expressions must be among those which the arithmetic evaluates correctly.
-/

namespace Pacal.Identity
open MeasureTheory ProbabilityTheory Standard Set Real

/-- the algebraic rules keep the law -/
theorem C70_rules {e e' : Expr} (h : Rule e e') : exprLaw e = exprLaw e' := by
  have sf := expr_sfinite
  cases h with
  | add_comm a b => exact op_swap meas_add fun x y => add_comm y x
  | add_assoc a b c => exact op_assoc meas_add meas_add meas_add meas_add add_assoc
  | mul_comm a b => exact op_swap meas_mul fun x y => mul_comm y x
  | mul_assoc a b c => exact op_assoc meas_mul meas_mul meas_mul meas_mul mul_assoc
  | min_comm a b => exact op_swap meas_min fun x y => min_comm y x
  | min_assoc a b c => exact op_assoc meas_min meas_min meas_min meas_min min_assoc
  | max_comm a b => exact op_swap meas_max fun x y => max_comm y x
  | max_assoc a b c => exact op_assoc meas_max meas_max meas_max meas_max max_assoc
  | sub_add a b => exact op_right meas_add meas_sub (measurable_fn _) fun x y => by simp only [stepFn]; ring
  | sub_swap a b =>
    refine (op_swap (op' := fun x y => y - x) meas_sub fun x y => rfl).trans ?_
    exact (op_out (op := fun x y => y - x) (by fun_prop) meas_sub (measurable_fn _) fun x y => by simp only [stepFn]; ring).symm
  | sub_sub a b c => exact op_assoc meas_sub meas_sub meas_sub meas_add sub_sub
  | div_mul a b => exact op_right meas_mul meas_div (measurable_fn _) fun x y => (div_eq_mul_inv x y).symm
  | div_swap a b =>
    refine (op_out (op := fun x y => y / x) (by fun_prop) meas_div (measurable_fn _) fun x y => by simp only [stepFn]; rw [inv_div]).trans ?_
    exact op_swap (by fun_prop) fun x y => rfl
  | div_div a b c => exact op_assoc meas_div meas_div meas_div meas_mul div_div
  | inv_mul a b => exact op_fun meas_mul meas_mul (measurable_fn _) (measurable_fn _) (measurable_fn _) fun x y => (mul_inv x y).symm
  | inv_inv a => exact (step_step _ (s := .inv) (t := .inv) (u := id) fun x => inv_inv x).trans Measure.map_id
  | abs_mul a b => exact op_fun meas_mul meas_mul (measurable_fn _) (measurable_fn _) (measurable_fn _) fun x y => (abs_mul x y).symm
  | abs_abs a => exact step_step _ fun x => abs_abs x
  | square_mul a b => exact op_fun meas_mul meas_mul (measurable_fn _) (measurable_fn _) (measurable_fn _) fun x y => (mul_pow x y 2).symm
  | square_abs a => exact step_step _ fun x => sq_abs x
  | square_pow a => rw [exprLaw, exprLaw, show stepFn .square = stepFn (.pow 2) from funext fun x => (rpow_two x).symm]
  | inv_pow a => rw [exprLaw, exprLaw, show stepFn .inv = stepFn (.pow (-1)) from funext fun x => (rpow_neg_one x).symm]
  | exp_add a b => exact op_fun meas_mul meas_add (measurable_fn _) (measurable_fn _) (measurable_fn _) fun x y => (exp_add x y).symm
  | exp_sub a b => exact op_fun meas_div meas_sub (measurable_fn _) (measurable_fn _) (measurable_fn _) fun x y => (exp_sub x y).symm
  | log_exp a => exact (step_step _ (s := .log) (t := .exp) (u := id) fun x => log_exp x).trans Measure.map_id
  | exp_min a b =>
    exact op_fun meas_min meas_min (measurable_fn _) (measurable_fn _) (measurable_fn _) fun x y => (exp_strictMono.monotone.map_min).symm
  | exp_max a b =>
    exact op_fun meas_max meas_max (measurable_fn _) (measurable_fn _) (measurable_fn _) fun x y => (exp_strictMono.monotone.map_max).symm
  | atan_min a b =>
    exact op_fun meas_min meas_min (measurable_fn _) (measurable_fn _) (measurable_fn _) fun x y => (arctan_strictMono.monotone.map_min).symm
  | atan_max a b =>
    exact op_fun meas_max meas_max (measurable_fn _) (measurable_fn _) (measurable_fn _) fun x y => (arctan_strictMono.monotone.map_max).symm
  | affine_id a =>
    rw [exprLaw, show stepFn (.shiftScale 0 1) = id from funext fun x => by simp [stepFn], Measure.map_id]
  | affine_affine p q p' q' a => exact step_step _ fun x => by simp only [stepFn]; ring
  | affine_add p q c a b =>
    exact op_fun meas_add meas_add (measurable_fn _) (measurable_fn _) (measurable_fn _) fun x y => by simp only [stepFn]; ring
  | scale_mul c d a b =>
    exact op_fun meas_mul meas_mul (measurable_fn _) (measurable_fn _) (measurable_fn _) fun x y => by simp only [stepFn]; ring
  | affine_min p a b hc =>
    exact op_fun meas_min meas_min (measurable_fn _) (measurable_fn _) (measurable_fn _) fun x y =>
      (Monotone.map_min (f := stepFn (.shiftScale p _)) fun x y h => by simp only [stepFn]; nlinarith).symm
  | affine_max p a b hc =>
    exact op_fun meas_max meas_max (measurable_fn _) (measurable_fn _) (measurable_fn _) fun x y =>
      (Monotone.map_max (f := stepFn (.shiftScale p _)) fun x y h => by simp only [stepFn]; nlinarith).symm
  | neg_min p a b hc =>
    exact op_fun meas_max meas_min (measurable_fn _) (measurable_fn _) (measurable_fn _) fun x y =>
      (Antitone.map_min (f := stepFn (.shiftScale p _)) fun x y h => by simp only [stepFn]; nlinarith).symm
  | neg_max p a b hc =>
    exact op_fun meas_min meas_max (measurable_fn _) (measurable_fn _) (measurable_fn _) fun x y =>
      (Antitone.map_max (f := stepFn (.shiftScale p _)) fun x y h => by simp only [stepFn]; nlinarith).symm

/-- equal expressions have the same law -/
theorem C70_equal {e e' : Expr} (h : Equal e e') : exprLaw e = exprLaw e' := by
  induction h with
  | rule h => exact C70_rules h
  | same h => exact C69_table h
  | sameTwo h => exact C69_table_two h
  | refl e => rfl
  | symm _ ih => exact ih.symm
  | trans _ _ ih₁ ih₂ => exact ih₁.trans ih₂
  | step s _ ih => rw [exprLaw, exprLaw, ih]
  | add _ _ ih₁ ih₂ => rw [exprLaw, exprLaw, ih₁, ih₂]
  | sub _ _ ih₁ ih₂ => rw [exprLaw, exprLaw, ih₁, ih₂]
  | mul _ _ ih₁ ih₂ => rw [exprLaw, exprLaw, ih₁, ih₂]
  | div _ _ ih₁ ih₂ => rw [exprLaw, exprLaw, ih₁, ih₂]
  | min _ _ ih₁ ih₂ => rw [exprLaw, exprLaw, ih₁, ih₂]
  | max _ _ ih₁ ih₂ => rw [exprLaw, exprLaw, ih₁, ih₂]

/-- **C70.** Equal expressions are evaluated to densities with the same law. -/
theorem C70_transform_partial {M : Machine} (hM : MachineOK M) {e e' : Expr} (he : ExprOK M e) (he' : ExprOK M e') (h : Equal e e') :
    ∃ r r', e.run M = some r ∧ e'.run M = some r' ∧ PF.law r = PF.law r' :=
  C68_same_partial hM he he' (C70_equal h)

/-- **C70, exact comparisons**: the conditions concern the shape of the expressions only. -/
theorem C70_transform_exact_partial {M : Machine} (hM : Unlimited M) {e e' : Expr} (he : Defined M.neg0 e) (he' : Defined M.neg0 e') (h : Equal e e') :
    ∃ r r', e.run M = some r ∧ e'.run M = some r' ∧ PF.law r = PF.law r' :=
  C70_transform_partial hM.toMachineOK (defined_ok hM he).1 (defined_ok hM he').1 h

/-! ### the hypotheses can be met -/

/-- `X₁ + (X₂ + X₃)` for normal variables, `X₁, X₂, X₃` with distributions `N(0, 3)`, `N(1, 4)`, `N(2, 12)`, is `N(3, 13)` -/
example : ∃ r r', (Expr.add (.dist (.normal 0 3)) (.add (.dist (.normal 1 4)) (.dist (.normal 2 12)))).run ideal = some r ∧
    (Expr.dist (.normal 3 13)).run ideal = some r' ∧ PF.law r = PF.law r' := by
  refine C70_transform_exact_partial ideal_ok (by norm_num [Defined, Kind.Valid, Exact, Gapless, Cont]) (by norm_num [Defined, Kind.Valid, Exact]) ?_
  refine .trans (.symm (.rule (.add_assoc _ _ _))) (.trans (.add (.sameTwo (.add_normal (by norm_num) (by norm_num))) (.refl _)) ?_)
  have e1 : √((3 : ℝ) ^ 2 + 4 ^ 2) = 5 := by rw [show (3 : ℝ) ^ 2 + 4 ^ 2 = 5 ^ 2 by norm_num, sqrt_sq (by norm_num)]
  have e2 : √((5 : ℝ) ^ 2 + 12 ^ 2) = 13 := by rw [show (5 : ℝ) ^ 2 + 12 ^ 2 = 13 ^ 2 by norm_num, sqrt_sq (by norm_num)]
  have h := SameExact.add_normal (m₁ := 0 + 1) (m₂ := 2) (s₁ := 5) (s₂ := 12) (by norm_num) (by norm_num)
  rw [e2, show (0 : ℝ) + 1 + 2 = 3 by norm_num] at h
  rw [e1]
  exact .sameTwo h

end Pacal.Identity
