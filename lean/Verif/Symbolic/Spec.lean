import Verif.Symbolic.Model

/-! The meaning of symbolic expressions, and what an operation on random variables is meant to be. -/

namespace Pacal.Symbolic

/-- value of an expression for given values of the variables -/
noncomputable def Sym.eval (σ : ℕ → ℝ) : Sym → ℝ
  | .sym i => σ i
  | .num c => c
  | .add a b => a.eval σ + b.eval σ
  | .sub a b => a.eval σ - b.eval σ
  | .mul a b => a.eval σ * b.eval σ
  | .div a b => a.eval σ / b.eval σ
  | .exp a => Real.exp (a.eval σ)
  | .log a => Real.log (a.eval σ)
  | .atan a => Real.arctan (a.eval σ)
  | .tanh a => Real.tanh (a.eval σ)
  | .sign a => Real.sign (a.eval σ)
  | .pow a e => a.eval σ ^ e
  | .min a b => Min.min (a.eval σ) (b.eval σ)
  | .max a b => Max.max (a.eval σ) (b.eval σ)

/-- sympy's simplifications do not change values -/
def Sound (norm : Sym → Sym) : Prop := ∀ e σ, (norm e).eval σ = e.eval σ

/-- the equation of the variable itself holds: its name stands for its expression -/
def Node.Eqn (σ : ℕ → ℝ) (n : Node) : Prop := n.symname.eval σ = n.sym.eval σ

/-- the equations of the variable and of everything it is made of hold -/
def Node.Sat (σ : ℕ → ℝ) : Node → Prop
  | .leaf _ => True
  | .one i b s p => (Node.one i b s p).Eqn σ ∧ p.Sat σ
  | .two i s p q => (Node.two i s p q).Eqn σ ∧ p.Sat σ ∧ q.Sat σ
  | .nested i s p => (Node.nested i s p).Eqn σ ∧ p.Sat σ
  | .bare i s p => (Node.bare i s p).Eqn σ ∧ p.Sat σ

/-- `ls` are the variables without parents that are found by following the parents -/
inductive Leaves : Node → List ℕ → Prop
  | stop {n : Node} (h : n.parents = .ok []) : Leaves n [n.id]
  | one {n p : Node} {l : List ℕ} (h : n.parents = .ok [p]) (hp : Leaves p l) : Leaves n l
  | two {n p q : Node} {l m : List ℕ} (h : n.parents = .ok [p, q]) (hp : Leaves p l) (hq : Leaves q m) : Leaves n (l ++ m)

/-- all symbols of the expression are variables with identities below `i` -/
def Sym.Below (i : ℕ) : Sym → Prop
  | .sym j => j < i
  | .num _ => True
  | .add a b | .sub a b | .mul a b | .div a b | .min a b | .max a b => a.Below i ∧ b.Below i
  | .exp a | .log a | .atan a | .tanh a | .sign a | .pow a _ => a.Below i

/-- sympy's simplifications do not invent symbols -/
def Fresh (norm : Sym → Sym) : Prop := ∀ e i, e.Below i → (norm e).Below i

/-- the variable and all it is made of have identities below `i`: the identities from `i` on are fresh -/
def Node.Below (i : ℕ) : Node → Prop
  | .leaf j => j < i
  | .one j _ s p => j < i ∧ s.Below i ∧ p.Below i
  | .two j s p q => j < i ∧ s.Below i ∧ p.Below i ∧ q.Below i
  | .nested j s p => j < i ∧ s.Below i ∧ p.Below i
  | .bare j s p => j < i ∧ s.Below i ∧ p.Below i

/-- every `ExpRV` the variable is made of has an expression with positive values only -/
def Node.Proper : Node → Prop
  | .leaf _ => True
  | .one _ b s p => (b = true → ∀ σ, 0 < s.eval σ) ∧ p.Proper
  | .two _ _ p q => p.Proper ∧ q.Proper
  | .nested _ _ p => p.Proper
  | .bare _ _ p => p.Proper

/-- the same for operands -/
def Val.Proper : Val → Prop
  | .num _ => True
  | .rv n => n.Proper

/-- value of an operand -/
noncomputable def Val.value (σ : ℕ → ℝ) : Val → ℝ
  | .num r => r
  | .rv n => n.symname.eval σ

/-- the same for operands -/
def Val.Below (i : ℕ) : Val → Prop
  | .num _ => True
  | .rv n => n.Below i

/-- the equations behind an operand hold -/
def Val.Sat (σ : ℕ → ℝ) : Val → Prop
  | .num _ => True
  | .rv n => n.Sat σ

/-- the leaves behind an operand; none for a number -/
def Val.Leaves : Val → List ℕ → Prop
  | .num _, l => l = []
  | .rv n, l => Symbolic.Leaves n l

/-- the operation that is meant -/
noncomputable def Op2.fn : Op2 → ℝ → ℝ → ℝ
  | .add, a, b => a + b
  | .sub, a, b => a - b
  | .mul, a, b => a * b
  | .div, a, b => a / b
  | .pow, a, b => a ^ b
  | .min, a, b => Min.min a b
  | .max, a, b => Max.max a b

/-- where it is defined -/
def Op2.Dom : Op2 → ℝ → ℝ → Prop
  | .div, _, b => b ≠ 0
  | .pow, a, b => 0 < a ∨ (a = 0 ∧ 0 < b) ∨ (a ≠ 0 ∧ ∃ n : ℤ, b = n)
  | _, _, _ => True

/-- the function that is meant -/
noncomputable def Op1.fn : Op1 → ℝ → ℝ
  | .neg, x => -x
  | .abs, x => |x|
  | .exp, x => Real.exp x
  | .log, x => Real.log x
  | .sqrt, x => √x
  | .sign, x => Real.sign x
  | .atan, x => Real.arctan x
  | .tanh, x => Real.tanh x
  | .sin, x => Real.sin x
  | .cos, x => Real.cos x
  | .tan, x => Real.tan x
  | .sigmoid, x => 1 / (1 + Real.exp (-x))

/-- where it is defined -/
def Op1.Dom : Op1 → ℝ → Prop
  | .log, x => 0 < x
  | .sqrt, x => 0 ≤ x
  | _, _ => True

end Pacal.Symbolic
