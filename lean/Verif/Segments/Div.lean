import Verif.Segments.Model
import Verif.Base.Err

/-! Model of quotients of piecewise functions. -/

namespace Pacal
variable {K : Type*} [Field K] [LinearOrder K] [IsStrictOrderedRing K]

/-- a piecewise function or a number -/
inductive Operand (K : Type*)
  | pf (l : PF K)
  | num (r : K)

/-- `other.getBreaks()` (segments.py:1672): a number has no such method -/
def Operand.function : Operand K → Except PyErr (PF K)
  | .pf l => .ok l
  | .num _ => .error .attribute

/-- `f / other`: `__truediv__` (segments.py:1588-1594) hands numbers and functions over to `_operation__`.  Division by 0,
which numpy turns into `inf` and `nan`, gives 0 here; the theorems do not speak about these points.  `assertion`: pieces
that overlap (`addSegment`). -/
def PF.truediv (eps : K) (f : PF K) (other : Operand K) : Except PyErr (PF K) := do
  let g ← other.function
  match PF.operation eps (fun x y => x / y) f g with
  | some r => .ok r
  | none => .error .assertion

/-- `r / f`: `__rtruediv__` (segments.py:1617-1621) with `_op_rdiv(x, y) = y / x` (57-58) -/
def PF.rdivReal (eps : K) (l : PF K) (r : K) : Option (PF K) := PF.roperation eps (fun x y => y / x) l r

end Pacal
