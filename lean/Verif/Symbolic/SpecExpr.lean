import Verif.Symbolic.Expr
import Verif.Symbolic.Spec

/-! The meaning of an expression. -/

namespace Pacal.Symbolic

/-- value of the expression for given values of the variables -/
noncomputable def Expr.eval (σ : ℕ → ℝ) : Expr → ℝ
  | .var j => σ j
  | .num r => r
  | .un op e => op.fn (e.eval σ)
  | .bin op e f => op.fn (e.eval σ) (f.eval σ)

/-- all operations of the expression are defined for these values -/
def Expr.Defined (σ : ℕ → ℝ) : Expr → Prop
  | .var _ => True
  | .num _ => True
  | .un op e => e.Defined σ ∧ op.Dom (e.eval σ)
  | .bin op e f => e.Defined σ ∧ f.Defined σ ∧ op.Dom (e.eval σ) (f.eval σ)

/-- all variables of the expression have identities below `i` -/
def Expr.Below (i : ℕ) : Expr → Prop
  | .var j => j < i
  | .num _ => True
  | .un _ e => e.Below i
  | .bin _ e f => e.Below i ∧ f.Below i

/-- the variables that occur, from left to right -/
def Expr.vars : Expr → List ℕ
  | .var j => [j]
  | .num _ => []
  | .un _ e => e.vars
  | .bin _ e f => e.vars ++ f.vars

/-- without `sqrt` and `sign` -/
def Expr.Plain : Expr → Prop
  | .var _ => True
  | .num _ => True
  | .un op e => op ≠ .sqrt ∧ op ≠ .sign ∧ e.Plain
  | .bin _ e f => e.Plain ∧ f.Plain

end Pacal.Symbolic
