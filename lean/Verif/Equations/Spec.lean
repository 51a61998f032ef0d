import Verif.Equations.Model

/-! Which variables a variable is computed from, and when values of the names are consistent. -/

namespace Pacal.Equations
variable {S : Type}

/-- `m` is the variable `n` or one of those it is computed from -/
inductive Uses : Node S → Node S → Prop
  | self (n : Node S) : Uses n n
  | one {s x : S} {p m : Node S} : Uses p m → Uses (.one s x p) m
  | left {s x : S} {p q m : Node S} : Uses p m → Uses (.more s x p q) m
  | right {s x : S} {p q m : Node S} : Uses q m → Uses (.more s x p q) m

/-- the equations of all variables that are computed from others hold; `sem s E` is the value of the expression `s` when the names have
the values `E` -/
def Consistent (isAtom : S → Bool) {V : Type} (sem : S → (S → V) → V) (v : Node S) (E : S → V) : Prop :=
  ∀ m, Uses v m → isAtom m.sym = false → E m.name = sem m.sym E

/-- the listed equations hold -/
def Solves {V : Type} (sem : S → (S → V) → V) (l : Eqs S) (E : S → V) : Prop := ∀ a ∈ l, E a.2 = sem a.1 E

/-- variables with the same expression have the same name -/
def Distinct (isAtom : S → Bool) (v : Node S) : Prop :=
  ∀ m m', Uses v m → Uses v m' → isAtom m.sym = false → m.sym = m'.sym → m.name = m'.name

end Pacal.Equations
