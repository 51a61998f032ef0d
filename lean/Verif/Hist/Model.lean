import Verif.Base.Err
import Mathlib.Data.Real.Basic
import Mathlib.Data.List.MinMax

/-!
Model of `Distr.hist` (`/repo/pacal/distr.py`).

Simplifications.  The numbers are real numbers.  Instead of drawing, `bar` adds its left end, height and width to a list; colours and
other options are left out.  `numpy.histogram` is modelled by its documentation: bins of equal width from the smallest to the largest
value (or of total width 1 around the value, if all are the same), closed on the left, the last one closed on both sides.
-/

namespace Pacal
namespace Hist

/-- the arguments of `hist` (distr.py:327); `maxSamp = none` and `xmin = none` stand for `None` -/
structure Args where
  n : ℕ := 1000000
  xmin : Option ℝ := none
  xmax : Option ℝ := none
  bins : ℕ := 50
  maxSamp : Option ℕ := none

/-- `max_samp` (distr.py:342-343) -/
def Args.limit (A : Args) : ℕ := A.maxSamp.getD (100 * A.n)

/-- the selection of the values in the range (distr.py:353-356) -/
noncomputable def keep (A : Args) (x : List ℝ) : List ℝ :=
  open Classical in
  let x := match A.xmin with
    | some m => x.filter fun t => m ≤ t
    | none => x
  match A.xmax with
    | some m => x.filter fun t => t ≤ m
    | none => x

/-- the loop (distr.py:350-357) from the state `X`, `allDrawn` on; `rand k m` is the result of the call number `k` of `rand`, for `m`
values.  Every round draws at least one value, so `limit - allDrawn` rounds are enough. -/
noncomputable def collect (A : Args) (rand : ℕ → ℕ → List ℝ) : ℕ → ℕ → List ℝ → ℕ → List ℝ × ℕ
  | 0, _, X, all => (X, all)
  | fuel + 1, k, X, all =>
    if X.length < A.n ∧ all < A.limit then
      let x := rand k (A.n - X.length)
      collect A rand fuel (k + 1) (X ++ keep A x) (all + x.length)
    else (X, all)

/-- the sample and the number of values drawn (distr.py:344-357) -/
noncomputable def sample (A : Args) (rand : ℕ → ℕ → List ℝ) : List ℝ × ℕ :=
  if A.xmin.isNone && A.xmax.isNone then (rand 0 A.n, (rand 0 A.n).length)
  else collect A rand A.limit 0 [] 0

/-- one call of `bar` with `align="edge"` -/
structure Bar where
  left : ℝ
  height : ℝ
  width : ℝ

/-- the smallest and the largest value -/
noncomputable def ends : List ℝ → Option (ℝ × ℝ)
  | [] => none
  | x :: l => some (l.foldl min x, l.foldl max x)

/-- the outer ends of the bins of `numpy.histogram` -/
noncomputable def outer (mm : ℝ × ℝ) : ℝ × ℝ :=
  open Classical in if mm.1 = mm.2 then (mm.1 - 1 / 2, mm.2 + 1 / 2) else mm

/-- the ends of the bins -/
noncomputable def edge (bins : ℕ) (o : ℝ × ℝ) (k : ℕ) : ℝ := o.1 + k * ((o.2 - o.1) / bins)

/-- the values in a bin -/
noncomputable def count (bins : ℕ) (o : ℝ × ℝ) (X : List ℝ) (k : ℕ) : ℕ :=
  open Classical in
  X.countP fun x => edge bins o k ≤ x ∧ (if k + 1 = bins then x ≤ edge bins o (k + 1) else x < edge bins o (k + 1))

/-- the bars (distr.py:358-368).  Without values, `max` raises an exception: `AttributeError` if `X` is still the empty list of line
348, `ValueError` for an empty array.  `histogram` raises `ValueError` if there are no bins. -/
noncomputable def bars (A : Args) (X : List ℝ) (all : ℕ) : Except PyErr (List Bar) :=
  open Classical in
  match ends X with
  | none => .error (if (A.xmin.isSome || A.xmax.isSome) && (A.n == 0 || A.limit == 0) then .attribute else .value)
  | some mm =>
    if A.bins = 0 then .error .value
    else
      let dw := (mm.2 - mm.1) / A.bins
      let dw := if dw = 0 then 1 else dw
      let w := 1 / (all : ℝ) / dw
      let o := outer mm
      let width := edge A.bins o 1 - edge A.bins o 0
      let width := if width = 0 then mm.2 * (1 / 100) else width
      .ok ((List.range A.bins).map fun k : ℕ => ⟨edge A.bins o k, count A.bins o X k * w, width⟩)

/-- `Distr.hist(n, xmin, xmax, bins, max_samp)` (distr.py:327-368) -/
noncomputable def hist (A : Args) (rand : ℕ → ℕ → List ℝ) : Except PyErr (List Bar) :=
  let s := sample A rand
  bars A s.1 s.2

end Hist
end Pacal
