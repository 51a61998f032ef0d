import Verif.Symbolic.LemExpr

/-! # C104 for whole expressions -/

namespace Pacal.Symbolic

/-- **C104, expressions of any size** (partial: only expressions whose evaluation returns).  Evaluate an expression in
random variables without distribution and numbers.  For all values of the variables there are values of the variables
made in between, satisfying all their equations, for which the result has the value of the expression, if all its
operations are defined. -/
theorem C104_expression_partial (norm : Sym → Sym) (hn : Sound norm) (hf : Fresh norm) (e : Expr) (i k : ℕ) (v : Val)
    (he : e.Below i) (h : e.build norm i = .ok (v, k)) (σ : ℕ → ℝ) :
    ∃ τ, (∀ j < i, τ j = σ j) ∧ v.Sat τ ∧ (e.Defined σ → v.value τ = e.eval σ) :=
  (build_ok hn hf he h).2.2.2 σ

/-- **C104, ancestors of expressions** (partial: without `sqrt` and `sign`, for which the ancestors cannot be found).  The
variables without parents behind the result are among the variables of the expression, in their order. -/
theorem C104_ancestors_partial (norm : Sym → Sym) (hn : Sound norm) (hf : Fresh norm) (e : Expr) (i k : ℕ) (v : Val)
    (he : e.Below i) (hp : e.Plain) (h : e.build norm i = .ok (v, k)) : ∃ l, v.Leaves l ∧ l.Sublist e.vars :=
  build_leaves hn hf he hp h

/-- `exp(X₀ * X₁ - 2) / X₀`: evaluation returns, the variables are as assumed, and the operations are defined where `X₀` is
not 0 -/
example : let e : Expr := .bin .div (.un .exp (.bin .sub (.bin .mul (.var 0) (.var 1)) (.num 2))) (.var 0)
    (∃ v k, e.build id 2 = .ok (.rv v, k)) ∧ e.Below 2 ∧ e.Plain ∧ ∀ σ : ℕ → ℝ, σ 0 ≠ 0 → e.Defined σ := by
  intro e
  refine ⟨?_, ?_, ?_, fun σ h => ?_⟩
  · simp only [e, Expr.build, Op2.run, Op1.run, mkShift, Bind.bind, Except.bind, Except.map, ne_eq, one_ne_zero,
      not_false_eq_true, if_true]
    exact ⟨_, _, rfl⟩
  · simp [e, Expr.Below]
  · simp [e, Expr.Plain]
  · simp only [e, Expr.Defined, Op1.Dom, Op2.Dom, Expr.eval]
    exact ⟨by simp, trivial, h⟩

end Pacal.Symbolic
