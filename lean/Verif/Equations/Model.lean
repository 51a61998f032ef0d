import Mathlib.Data.List.Basic

/-!
Model of `RV.getEquations` (`/repo/pacal/rv.py:86-105`): the equations of all variables that a variable is computed from.

Symbols and expressions of sympy are values of a type `S` with equality; `isAtom` is `is_Atom`.
-/

namespace Pacal.Equations

/-- A variable with its expression `sym` (rv.py:66-68), its name `symname` (83-84) and its parents: none, one, or two or more, of which
`getEquations` looks at the first two (rv.py:98-105).  A variable that is used several times is repeated. -/
inductive Node (S : Type)
  | free (sym name : S)
  | one (sym name : S) (p : Node S)
  | more (sym name : S) (p q : Node S)

variable {S : Type}

/-- `getSym()` (rv.py:66-68) -/
def Node.sym : Node S → S
  | .free s _ => s
  | .one s _ _ => s
  | .more s _ _ _ => s

/-- `getSymname()` (rv.py:83-84) -/
def Node.name : Node S → S
  | .free _ n => n
  | .one _ n _ => n
  | .more _ n _ _ => n

/-- the two lists `l` and `r` (expressions and names), as one list of pairs: they are always extended together (rv.py:95-97) -/
abbrev Eqs (S : Type) := List (S × S)

variable [DecidableEq S]

/-- `if not node.getSym().is_Atom and not node.getSym() in set(l)` (rv.py:95-97) -/
def record (isAtom : S → Bool) (n : Node S) (acc : Eqs S) : Eqs S :=
  if !isAtom n.sym && !(acc.map Prod.fst).contains n.sym then acc ++ [(n.sym, n.name)] else acc

/-- `self.getEquations(node, l, r)` (rv.py:86-105) -/
def collect (isAtom : S → Bool) : Node S → Eqs S → Eqs S
  | .free s x, acc => record isAtom (.free s x) acc
  | .one s x p, acc => collect isAtom p (record isAtom (.one s x p) acc)
  | .more s x p q, acc => collect isAtom q (collect isAtom p (record isAtom (.more s x p q) acc))

/-- `v.getEquations()` (rv.py:86-92) -/
def getEquations (isAtom : S → Bool) (v : Node S) : Eqs S := collect isAtom v []

end Pacal.Equations
