import Verif.Cache.Model
import Verif.Distr.Discrete

/-! The distributions whose densities are built in steps from a list of pieces. -/

namespace Pacal.Cache

/-- one `addSegment` (segments.py:1086-1100), with its `AssertionError` as a value -/
noncomputable def addStep (eps : ℝ) (s : Seg ℝ) (l : PF ℝ) : Except PyErr (PF ℝ) :=
  match PF.addSegment eps l s with
  | none => .error .assertion
  | some l' => .ok l'

/-- `PDistr.init_piecewise_pdf` for a list of segments (standard_distr.py:58-61) -/
noncomputable def pieces (eps : ℝ) (segs : List (Seg ℝ)) : Init (PF ℝ) :=
  .stepwise (.ok []) (segs.map (addStep eps))

/-- `PDistr()` without segments (standard_distr.py:52-61): `for seg in None` raises `TypeError` after the blank density was
assigned -/
def noPieces : Init (PF ℝ) := .stepwise (.ok []) [fun _ => .error .typ]

/-- `DiscreteDistr.init_piecewise_pdf` (distr.py:1084-1089), step by step -/
noncomputable def discrete (eps : ℝ) (t : List (ℝ × ℝ)) : Init (PF ℝ) :=
  pieces eps (((tableSort t).map fun p => Seg.dirac p.1 p.2) ++ zeroPieces ((tableSort t).map Prod.fst))

/-- `FunDistr.init_piecewise_pdf` with `interpolated=True` (standard_distr.py:41-44): the given function is assigned, and
then its interpolated version -/
def given {D : Type} (f : D) (interp : D → Except PyErr D) : Init D := .stepwise (.ok f) [interp]

end Pacal.Cache
