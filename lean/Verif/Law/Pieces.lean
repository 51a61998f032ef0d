import Verif.Law.Arrays

/-! Model of single pieces called on whole arrays (`/repo/pacal/segments.py`), with the conventions of `Verif/Law/Arrays.lean`. -/

namespace Pacal
namespace PF

/-- `numpy.select([ind], [c], 0)` for a number `c`: an array of the type of `c`, here a float -/
noncomputable def selectConst (c : ℝ) (ind : List Bool) : List ℝ := ind.map fun b => if b then c else 0

/-- `__call__` of a piece on an array: `Segment` (segments.py:157-161, inherited by `MInfSegment` and `PInfSegment`; `where` always returns
a tuple with one entry, the test of its length is always true), `ConstSegment` (486-487), `DiracSegment` (683-685) -/
noncomputable def pieceArray (int : Bool) (s : Seg ℝ) (xs : List ℝ) : List ℝ :=
  let ind := open Classical in xs.map fun x => decide (s.lo ≤ .fin x) && decide (.fin x ≤ s.hi)
  match s with
  | .const _ _ c => selectConst c ind
  | .dirac a _ => putMask int (open Classical in xs.map fun x => decide (x = a)) (xs.map fun _ => 0)
      ((select (open Classical in xs.map fun x => decide (x = a)) xs).map fun _ => 1)
  | s => putMask int ind (xs.map fun _ => 0) ((select ind xs).map s.fn)

end PF
end Pacal
