import Verif.Segments.Model

/-! Model of the comparisons of pieces (`/repo/pacal/segments.py`); `<` and `>` are in `Verif/Segments/Model.lean`. -/

namespace Pacal
namespace Seg
variable {K : Type*} [Field K] [LinearOrder K]

/-- `__le__` (segments.py:457-461) -/
def le (s t : Seg K) : Bool := decide (s.hi ≤ t.lo)

/-- `__ge__` (segments.py:462-466) -/
def ge (s t : Seg K) : Bool := decide (t.hi ≤ s.lo)

/-- `__eq__` (segments.py:467-471) -/
def eq (s t : Seg K) : Bool := decide (s.lo = t.lo) || decide (s.hi = t.hi)

end Seg

/-- `segments.index(t)` for a list of pieces: the position of the first piece which is `t` or equal to it according to `__eq__` (Python);
`none` for the ValueError.  The identity of objects is not modelled: a piece which is `t` is equal to it anyway. -/
def PF.index {K : Type*} [Field K] [LinearOrder K] (l : PF K) (t : Seg K) : Option ℕ := l.findIdx? fun s => s.eq t

end Pacal
