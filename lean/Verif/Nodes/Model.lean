import Verif.Base.Err
import Verif.Util.Monitor
import Mathlib.Analysis.SpecialFunctions.Trigonometric.Basic
import Mathlib.Analysis.SpecialFunctions.Log.Basic

/-!
Model of the interpolation node families (`/repo/pacal/utils.py:93-170`), of the weights of the barycentric
interpolators (`/repo/pacal/interpolation.py:98-107, 244-248, 296-304, 319-327, 388-392`) and of
barycentric evaluation (`/repo/pacal/bary_interp.pyx:56-102`, `/repo/pacal/interpolation.py:108-145`).

Numbers are real (exact arithmetic, exact cosine); evaluation is over any ordered field.
-/

namespace Pacal
namespace Nodes
open Real

/-- `apb - bma * cos(t)` with `apb = 0.5 * (a + b)`, `bma = 0.5 * (b - a)` -/
noncomputable def point (a b t : ℝ) : ℝ := 1 / 2 * (a + b) - 1 / 2 * (b - a) * cos t

/-- `cheb_nodes(n, a, b)` (utils.py:93-103), also `chebspace` (116-125) for `n ≠ 1`; for `n = 0` the code
raises `IndexError`, here the list is empty (never requested: all callers ask for at least two nodes). -/
noncomputable def cheb (n : ℕ) (a b : ℝ) : List ℝ :=
  if n = 1 then [1 / 2 * (a + b)]
  else (((List.range n).map fun k : ℕ => point a b ((k : ℝ) * π / ((n : ℝ) - 1))).set 0 a).set (n - 1) b

/-- `incremental_cheb_nodes(n, a, b)` (utils.py:146-151): `arange(1, n-1, 2)` has `(n-1)/2` elements -/
noncomputable def inc (n : ℕ) (a b : ℝ) : List ℝ :=
  (List.range ((n - 1) / 2)).map fun i => point a b (((2 * i + 1 : ℕ) : ℝ) * π / ((n : ℝ) - 1))

/-- `cheb_nodes1(n, a, b)` (utils.py:157-164), also `chebspace1` (133-138) -/
noncomputable def cheb1 (n : ℕ) (a b : ℝ) : List ℝ :=
  (List.range n).map fun i => point a b (((2 * i + 1 : ℕ) : ℝ) * π / (2 * (n : ℝ)))

/-- `incremental_cheb_nodes1(n, a, b)` (utils.py:165-170) -/
noncomputable def inc1 (n : ℕ) (a b : ℝ) : List ℝ :=
  ((List.range n).filter fun i => i % 3 ≠ 1).map fun i => point a b (((2 * i + 1 : ℕ) : ℝ) * π / (2 * (n : ℝ)))

/-- a point of the logarithmic grid: `exp(cos(t)/2 * log(b/a)) * sqrt(a*b)` (utils.py:109-110) -/
noncomputable def pointLog (a b t : ℝ) : ℝ := exp (cos t / 2 * log (b / a)) * √(a * b)

/-- `cheb_nodes_log(n, a, b)` (utils.py:106-115); the assertion `0 < a < b` is an error value -/
noncomputable def chebLog (n : ℕ) (a b : ℝ) : Except PyErr (List ℝ) :=
  if 0 < a ∧ a < b then
    .ok ((((List.range n).map fun k : ℕ => pointLog a b ((k : ℝ) * π / ((n : ℝ) - 1))).set 0 a).set (n - 1) b)
  else .error .assertion

/-- `incremental_cheb_nodes_log(n, a, b)` (utils.py:152-156) -/
noncomputable def incLog (n : ℕ) (a b : ℝ) : List ℝ :=
  (List.range ((n - 1) / 2)).map fun i => pointLog a b (((2 * i + 1 : ℕ) : ℝ) * π / ((n : ℝ) - 1))

/-! ### weights -/

/-- `ones_like(Xs)` with `weights[p::2] = -1` -/
def alt (p m : ℕ) : List ℝ := (List.range m).map fun i => if i % 2 = p then -1 else 1

/-- `ChebyshevInterpolator.init_weights` (interpolation.py:244-248), `chebspace` (utils.py:126-130) -/
noncomputable def chebWeights (m : ℕ) : List ℝ := ((alt 0 m).modify 0 (· / 2)).modify (m - 1) (· / 2)

/-- `ChebyshevInterpolator1.init_weights` (interpolation.py:388-392), `chebspace1` (utils.py:139-142) -/
noncomputable def cheb1Weights (m : ℕ) : List ℝ :=
  (List.range m).map fun i =>
    if i % 2 = 1 then -1 * sin (((2 * i + 1 : ℕ) : ℝ) * π / (2 * (m : ℝ)))
    else sin (((2 * i + 1 : ℕ) : ℝ) * π / (2 * (m : ℝ)))

/-- `ChebyshevInterpolatorNoL.init_weights` (interpolation.py:296-304) for `m` nodes: the slice
`[-1:0:-1]` takes the indices `m, …, 1` -/
noncomputable def noLWeights (m : ℕ) : List ℝ :=
  (List.zipWith (· * ·) ((alt 0 m).modify 0 (· / 2))
    ((List.range m).map fun i => 2 * sin (((m - i : ℕ) : ℝ) * π / (m : ℝ) / 2) ^ 2)).reverse

/-- `ChebyshevInterpolatorNoR.init_weights` (interpolation.py:319-327): the slice `[-2::-1]` takes the
indices `m - 1, …, 0` -/
noncomputable def noRWeights (m : ℕ) : List ℝ :=
  (List.zipWith (· * ·) ((alt 1 m).modify (m - 1) (· / 2))
    ((List.range m).map fun i => 2 * sin (π / 2 - ((m - 1 - i : ℕ) : ℝ) * π / (m : ℝ) / 2) ^ 2)).reverse

/-! ### evaluation -/
variable {K : Type} [Field K] [LinearOrder K] [IsStrictOrderedRing K]

/-- `BarycentricInterpolator.init_weights` (interpolation.py:98-107): one division per other node -/
def lagrangeWeights (xs : List K) : List K :=
  xs.zipIdx.map fun p => xs.zipIdx.foldl (fun w q => if q.2 ≠ p.2 then w / (p.1 - q.1) else w) 1

/-- the inner loop of `bary_interp` (bary_interp.pyx:79-86); `.inl` is the `break` on an exact hit,
`.inr (num, den)` the normal end -/
def baryLoop (x : K) : List (K × K × K) → K → K → K ⊕ (K × K)
  | [], num, den => .inr (num, den)
  | (nx, y, w) :: rest, num, den =>
    if x = nx then .inl y
    else baryLoop x rest (num + w / (x - nx) * y) (den + w / (x - nx))

/-- `np.argmin`: index of the first smallest element, raises on an empty array -/
def argmin : List K → Except PyErr ℕ
  | [] => .error .value
  | x :: xs => .ok (xs.foldl (fun (s : ℕ × ℕ × K) y =>
      if y < s.2.2 then (s.1 + 1, s.1, y) else (s.1 + 1, s.2.1, s.2.2)) (1, 0, x)).2.1

/-- one value of `bary_interp` (bary_interp.pyx:75-96) -/
def bary (xs ys ws : List K) (x : K) : Except PyErr K :=
  match baryLoop x (xs.zip (ys.zip ws)) 0 0 with
  | .inl y => .ok y
  | .inr (num, den) =>
    if den ≠ 0 then .ok (num / den)
    else do
      let i ← argmin (xs.map fun xn => |x - xn|)
      match ys[i]? with
      | some y => .ok y
      | none => .error .index

/-- the same without Cython (interpolation.py:126-141), for one value: `xdiff[ind] = 1` avoids the division
by zero, and the values of exact hits are overwritten afterwards (the last one stays) -/
def baryPy (xs ys ws : List K) (x : K) : Except PyErr K :=
  let pts := xs.zip (ys.zip ws)
  let xdiff := fun nx => if x - nx = 0 then 1 else x - nx
  let num := (pts.map fun p => p.2.2 / xdiff p.1 * p.2.1).sum
  let den := (pts.map fun p => p.2.2 / xdiff p.1).sum
  do
    let r ← if den = 0 then do
        let i ← argmin (xs.map fun xn => |xdiff xn|)
        match ys[i]? with
        | some y => .ok y
        | none => .error .index
      else .ok (num / den)
    match (pts.filter fun p => x - p.1 = 0).getLast? with
    | some p => .ok p.2.1
    | none => .ok r

end Nodes
end Pacal
