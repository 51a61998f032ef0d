import Verif.TwoVars.Model

/-!
What sympy gives for some operations: the expressions are solved and substituted by hand here, ends at infinity by limits
as `eq_solve` does (`/repo/pacal/sympy_utils.py:48-61`).
-/

namespace Pacal
namespace TwoVars

/-- the values of `m t + c` with the limits at infinity, `m` not zero -/
noncomputable def aff (m c : ℝ) (e : EReal) : EReal := open Classical in
  if e = ⊥ then (if 0 < m then ⊥ else ⊤) else if e = ⊤ then (if 0 < m then ⊤ else ⊥) else ((m * e.toReal + c : ℝ) : EReal)

open Classical in
/-- `α x + β y`: `lop` (models.py:583), `fun_alongx` (473), `Jx` (478), `solveCutsX` (485-488), `solveCutsY` (489-494) -/
noncomputable def linear (α β : ℝ) : Sym where
  lop a b := if aff α 0 a = ⊤ ∧ aff β 0 b = ⊥ ∨ aff α 0 a = ⊥ ∧ aff β 0 b = ⊤ then none else some (aff α 0 a + aff β 0 b)
  along x z := (z - α * x) / β
  jac _ _ := 1 / β
  cutX y z := .ok (some (aff (-(β / α)) (z / α) y))
  cutY x z := some (aff (-(α / β)) (z / β) x)

open Classical in
/-- `x y`: `lop`, `fun_alongx = z / x`, `Jx = 1 / x`; `z / x = 0` has no solution for `x`; `z / x` at `x = 0` is sympy's
complex infinity (nan for `z = 0`), not an extended real number -/
noncomputable def product : Sym where
  lop a b := if (a = 0 ∧ (b = ⊤ ∨ b = ⊥)) ∨ (b = 0 ∧ (a = ⊤ ∨ a = ⊥)) then none else some (a * b)
  along x z := z / x
  jac x _ := 1 / x
  cutX y z := if y = 0 then .error .index else .ok (some (z / y))
  cutY x z := if x = 0 then none else some (z / x)

open Classical in
/-- `x y / (x + y)` (two resistors in parallel, as in `examples/dependent/two_variables/resistors.py`) for finite ends:
`fun_alongx = x z / (x - z)`, `Jx = x² / (x - z)²`; solving `x z / (x - z) = y` for `x` gives `y z / (y - z)`; at a pole sympy
has complex infinity -/
noncomputable def parallel : Sym where
  lop a b := if a.toReal + b.toReal = 0 then none else some ((a.toReal * b.toReal / (a.toReal + b.toReal) : ℝ) : EReal)
  along x z := x * z / (x - z)
  jac x z := x ^ 2 / (x - z) ^ 2
  cutX y z := .ok (if y.toReal = z then none else some ((y.toReal * z / (y.toReal - z) : ℝ) : EReal))
  cutY x z := if x.toReal = z then none else some ((x.toReal * z / (x.toReal - z) : ℝ) : EReal)

end TwoVars
end Pacal
