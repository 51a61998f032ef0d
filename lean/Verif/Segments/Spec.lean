import Verif.Segments.Model

/-!
Small independent specification of piecewise functions: when pieces are separated, which value a
function has at a point, and how much mass it puts on a point.
-/

namespace Pacal
variable {K : Type*} [Field K] [LinearOrder K]

/-- A real piece has positive length. -/
def Seg.WF : Seg K → Prop
  | .fin _ a b _ => a < b
  | .const a b _ => a < b
  | _ => True

/-- `s` lies entirely to the left of `t` (common end points allowed); two atoms must be more than
`eps` apart. -/
def Seg.LeftOf (eps : K) (s t : Seg K) : Prop :=
  s.hi ≤ t.lo ∧
    ∀ a m a' m', s = .dirac a m → t = .dirac a' m' → eps < |a - a'|

/-- the two pieces do not overlap -/
def Seg.Disjoint (eps : K) (s t : Seg K) : Prop := s.LeftOf eps t ∨ t.LeftOf eps s

/-- A well-formed piecewise function: pieces of positive length, listed from left to right without
overlap. -/
structure PF.WF (eps : K) (l : PF K) : Prop where
  seg : ∀ s ∈ l, s.WF
  sorted : l.Pairwise (Seg.LeftOf eps)

/-- value at `x` contributed by one piece, a piece being taken as `[a, b)` -/
def Seg.val (x : K) (s : Seg K) : K :=
  if s.isDirac = false ∧ s.lo ≤ .fin x ∧ .fin x < s.hi then s.fn x else 0

/-- value of a piecewise function at `x` (pieces taken as `[a, b)`, 0 where there is no piece) -/
def PF.val (l : PF K) (x : K) : K := (l.map (Seg.val x)).sum

/-- mass that one piece puts on the single point `x` -/
def Seg.massAt (x : K) : Seg K → K
  | .dirac a m => if a = x then m else 0
  | _ => 0

/-- mass that a piecewise function puts on the single point `x` -/
def PF.massAt (l : PF K) (x : K) : K := (l.map (Seg.massAt x)).sum

/-- total mass of the atoms -/
def PF.atomMass (l : PF K) : K := (l.map Seg.mass).sum

end Pacal
