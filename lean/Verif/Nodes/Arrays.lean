import Verif.Nodes.Model

/-!
Further evaluation methods of `/repo/pacal/interpolation.py`: plain Lagrange interpolation, evaluation on arrays without the
compiled module, and `copyReverse`.
-/

namespace Pacal
namespace Nodes
variable {K : Type} [Field K] [LinearOrder K] [IsStrictOrderedRing K]

/-- `Interpolator.interp_at(x)` (interpolation.py:67-77).  Nodes are meant to be distinct: for equal nodes numpy divides by zero
(infinite or undefined values), here the quotient is 0. -/
def lagrangeAt (xs ys : List K) (x : K) : Except PyErr K :=
  xs.zipIdx.foldlM (fun ret p =>
    match ys[p.2]? with
    | some y => .ok (ret + xs.zipIdx.foldl (fun w q => if q.2 ≠ p.2 then w * ((x - q.1) / (p.1 - q.1)) else w) 1 * y)
    | none => .error .index) 0

/-- the first `k` parts have `q + 1` elements, the others `q` -/
def splitLoop {α : Type} (q : ℕ) : ℕ → ℕ → List α → List (List α)
  | 0, _, _ => []
  | n + 1, 0, l => l.take q :: splitLoop q n 0 (l.drop q)
  | n + 1, k + 1, l => l.take (q + 1) :: splitLoop q n k (l.drop (q + 1))

/-- numpy's `array_split(l, n)`: raises for `n = 0` -/
def arraySplit {α : Type} (l : List α) (n : ℕ) : Except PyErr (List (List α)) :=
  if n = 0 then .error .value else .ok (splitLoop (l.length / n) n (l.length % n) l)

/-- `BarycentricInterpolator.interp_at(x)` for an array without the compiled module (interpolation.py:114-148); `maxSize` is the
number 100000 of line 117 -/
def baryArray (maxSize : ℕ) (xs ys ws : List K) (x : List K) : Except PyErr (List K) := do
  let parts ← if x.length ≤ maxSize then .ok [x] else arraySplit x ((x.length * xs.length + maxSize - 1) / maxSize)
  let results ← parts.mapM fun p => p.mapM (baryPy xs ys ws)
  .ok results.flatten

/-- `Interpolator.copyReverse()` (interpolation.py:82-83): the slice `[-1:1:-1]` ends before index 1 -/
def copyReverse (xs ys : List K) : List K × List K := ((xs.drop 2).reverse, (ys.drop 2).reverse)

end Nodes
end Pacal
