import Verif.Symbolic.Model

/-! Evaluation of whole expressions in random variables without distribution, as the Python interpreter does it. -/

namespace Pacal.Symbolic

/-- an expression in variables and numbers -/
inductive Expr
  | var (j : ℕ)
  | num (r : ℝ)
  | un (op : Op1) (e : Expr)
  | bin (op : Op2) (e f : Expr)

/-- Evaluation, operands from left to right; the operators are the methods of rv.py:182-291 and the functions of distr.py cited at
`Op1.run`.  `i` is the first unused identity; every operation makes at most three variables.  A function of a number
outside of its domain (`nan`) is not modelled and given as `value`. -/
noncomputable def Expr.build (norm : Sym → Sym) (i : ℕ) : Expr → Except PyErr (Val × ℕ)
  | .var j => .ok (.rv (.leaf j), i)
  | .num r => .ok (.num r, i)
  | .un op e => do
    let (a, k) ← e.build norm i
    match a with
    | .num r =>
      match op.onNumber r with
      | .ok (some y) => .ok (.num y, k)
      | .ok none => .error .value
      | .error x => .error x
    | .rv n => do
      let v ← op.run norm k n
      .ok (.rv v, k + 3)
  | .bin op e f => do
    let (a, k) ← e.build norm i
    let (b, l) ← f.build norm k
    let v ← op.run norm l a b
    .ok (v, l + 3)

end Pacal.Symbolic
