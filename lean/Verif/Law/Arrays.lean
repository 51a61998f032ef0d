import Verif.Law.Model
import Mathlib.Algebra.Order.Floor.Ring

/-!
Model of piecewise functions called on whole arrays, of floats or of integers (`/repo/pacal/segments.py`, `/repo/pacal/distr.py`).

* An array is the list of its entries together with the information whether its elements are integers.  Arrays have one dimension.
* The function of a piece acts elementwise on arrays.
-/

namespace Pacal
namespace PF
open Transform

/-- the value stored in an array: arrays of integers truncate towards 0 (numpy) -/
noncomputable def storeAs (int : Bool) (v : ℝ) : ℝ := if int then ((if 0 ≤ v then ⌊v⌋ else ⌈v⌉ : ℤ) : ℝ) else v

/-- `y[ind] = vs` for a mask `ind`: the entries selected by the mask are replaced by the values in turn (numpy) -/
noncomputable def putMask (int : Bool) : List Bool → List ℝ → List ℝ → List ℝ
  | true :: ms, _ :: ys, v :: vs => storeAs int v :: putMask int ms ys vs
  | true :: ms, y :: ys, [] => y :: putMask int ms ys []
  | false :: ms, y :: ys, vs => y :: putMask int ms ys vs
  | _, _, _ => []

/-- `x[ind]` for a mask `ind` (numpy) -/
def select : List Bool → List ℝ → List ℝ
  | true :: ms, x :: xs => x :: select ms xs
  | false :: ms, _ :: xs => select ms xs
  | _, _ => []

/-- `ind = ((x>=seg.a) & (x<seg.b))` (segments.py:1078) -/
noncomputable def maskOf (s : Seg ℝ) (xs : List ℝ) : List Bool :=
  open Classical in xs.map fun x => decide (s.lo ≤ .fin x) && decide (.fin x < s.hi)

/-- the loop of `__call__` on an array (segments.py:1077-1080) -/
noncomputable def callLoop (int : Bool) (xs : List ℝ) : PF ℝ → List ℝ → List ℝ
  | [], ys => ys
  | s :: l, ys =>
    let ind := maskOf s xs
    callLoop int xs l (if ind.any id then putMask int ind ys ((select ind xs).map s.fn) else ys)

/-- `__call__` on an array (segments.py:1074-1084); after the loop the variable `seg` is the last piece. -/
noncomputable def callArray (int : Bool) (l : PF ℝ) (xs : List ℝ) : List ℝ :=
  let ys := callLoop int xs (segs l) (xs.map fun _ => 0)
  match (segs l).getLast? with
  | none => ys
  | some s =>
    let ind := open Classical in xs.map fun x => decide (.fin x = s.hi)
    putMask int ind ys ((select ind xs).map s.fn)

/-- `Distr.cdf(x)` for an array (distr.py:130-132 with 85-90) -/
noncomputable def cdfArray (eps : ℝ) (q : Quad) (p : QPar) (int : Bool) (l : PF ℝ) (xs : List ℝ) : Option (List ℝ) :=
  (cumint eps q p l).map fun F => F.callArray int xs

end PF
end Pacal
