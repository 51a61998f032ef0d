import Mathlib.Data.Nat.Notation

/-! Python exceptions as values. -/

namespace Pacal

/-- Python exceptions that the modelled functions can raise -/
inductive PyErr
  | index | typ | value | attribute | assertion | name | unbound | zeroDivision | recursion | key
  | op (code : ℕ)
  deriving DecidableEq, Repr

end Pacal
