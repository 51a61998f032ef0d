import Verif.Nodes.Model
import Mathlib.Analysis.SpecialFunctions.Complex.Circle

/-!
Model of the Clenshaw–Curtis and Fejér quadrature rules (`/repo/pacal/integration.py:43-88`) and of the
integrators `integrate_clenshaw` (91-120) and `integrate_fejer2_vector` (164-200).  The loop of
`integrate_fejer2` (122-161) is in `Verif.Util.Monitor`; here it gets its real nodes and coefficients.

Numbers are real (exact arithmetic, exact exponential); debug output is left out.
-/

namespace Pacal
namespace Rule
open Mon Nodes

/-- `N = np.arange(1, n1, 2)` (integration.py:54, 80): the odd numbers below `n1`, `⌊n1/2⌋` of them -/
def odds (n1 : ℕ) : List ℤ := (List.range (n1 / 2)).map fun i : ℕ => 2 * (i : ℤ) + 1

/-- `v0 = -np.hstack([2.0 / (N*(N-2)), [1.0/N[-1]], np.zeros(m)])` (integration.py:55-57, 81-83);
`N[-1]` of an empty array raises `IndexError` -/
noncomputable def v0 (n1 : ℕ) : Except PyErr (List ℝ) :=
  let N := odds n1
  let l := N.length
  let m := n1 - l
  match N.getLast? with
  | none => .error .index
  | some last =>
    .ok (((N.map fun k => (2 : ℝ) / ((k * (k - 2) : ℤ) : ℝ)) ++ [1 / (last : ℝ)] ++ List.replicate m 0).map (- ·))

/-- `v2 = v0[:-1] + v0[-1:0:-1]` (integration.py:58, 84) -/
def fold (v : List ℝ) : List ℝ := List.zipWith (· + ·) v.dropLast v.tail.reverse

/-- `g0 = -np.ones(n1); g0[l] += n1; g0[m] += n1; g = g0/(n1**2 - 1 + n1%2)` (integration.py:60-63); the indices
are in range, since `1 ≤ l ≤ m < n1` whenever `v0` did not raise -/
noncomputable def gvec (n1 : ℕ) : List ℝ :=
  let l := (odds n1).length
  let m := n1 - l
  (((List.replicate n1 (-1 : ℝ)).modify l (· + n1)).modify m (· + n1)).map
    (· / ((n1 : ℝ) ^ 2 - 1 + ((n1 % 2 : ℕ) : ℝ)))

/-- `ifft(u).real`: the real part of the inverse discrete Fourier transform
`a_k = (1/n) * sum(u_j * exp(2*pi*i*j*k/n))` (numpy's documented definition) -/
noncomputable def ifftReal (u : List ℝ) : List ℝ :=
  (List.range u.length).map fun k : ℕ =>
    ((u.zipIdx.map fun p => (p.1 : ℂ) * Complex.exp (2 * Real.pi * Complex.I * (p.2 : ℂ) * (k : ℂ) / (u.length : ℂ))).sum
      / (u.length : ℂ)).re

/-- `clenshaw_coefficients(n)` without the cache (integration.py:53-65) -/
noncomputable def clenshaw (n : ℕ) : Except PyErr (List ℝ) := do
  let v ← v0 (n - 1)
  let c := ifftReal (List.zipWith (· + ·) (fold v) (gvec (n - 1)))
  match c.head? with
  | none => .error .index
  | some c0 => .ok (c ++ [c0])

/-- `fejer2_coefficients(n)` without the cache (integration.py:79-86) -/
noncomputable def fejer2 (n : ℕ) : Except PyErr (List ℝ) := do
  let v ← v0 (n - 1)
  .ok (ifftReal (fold v)).tail

/-- The module-level dictionaries `_clenshaw_cache`, `_fejer2_cache` (integration.py:44, 70): a call looks `n` up
and otherwise computes the coefficients and stores them; a computation that raises stores nothing
(integration.py:50-51, 66-67 and 76-77, 87-88). -/
noncomputable def cached (compute : ℕ → Except PyErr (List ℝ)) (cache : List (ℕ × List ℝ)) (n : ℕ) :
    Except PyErr (List ℝ) × List (ℕ × List ℝ) :=
  match cache.lookup n with
  | some c => (.ok c, cache)
  | none =>
    match compute n with
    | .ok c => (.ok c, (n, c) :: cache)
    | .error e => (.error e, cache)

/-- a history of calls, starting from the empty dictionary: the answers in order -/
noncomputable def history (compute : ℕ → Except PyErr (List ℝ)) :
    List (ℕ × List ℝ) → List ℕ → List (Except PyErr (List ℝ))
  | _, [] => []
  | cache, n :: ns => (cached compute cache n).1 :: history compute (cached compute cache n).2 ns

/-- the value of a computation that does not raise (the integrators start with 3 and 65 nodes) -/
noncomputable def coefOf (compute : ℕ → Except PyErr (List ℝ)) (n : ℕ) : List ℝ :=
  match compute n with
  | .ok c => c
  | .error _ => []

/-- the nodes and coefficients of `integrate_fejer2` (integration.py:136-147) -/
noncomputable def fejerGrid (a b : ℝ) : Grid ℝ :=
  ⟨fun n => cheb n a b, fun n => inc n a b, coefOf fejer2⟩

/-! ### `integrate_clenshaw` -/

/-- the local variables: nodes and values, `prevI`, `I`, `err` (unbound at first), the monitor -/
structure CState where
  nodes : Option (List ℝ × List ℝ) := none
  prev : Option ℝ := none
  val : Option ℝ := none
  err : Option ℝ := none
  cm : State ℝ Unit := {}

/-- nodes and values of the next step (integration.py:98-106) -/
noncomputable def clenshawNodes (f : ℝ → ℝ) (a b : ℝ) (n : ℕ) :
    Option (List ℝ × List ℝ) → Except PyErr (List ℝ × List ℝ)
  | none => .ok (cheb n a b, (cheb n a b).map f)
  | some (nodes, fs) => do
    let xs ← combineFast nodes (inc n a b)
    let ys ← combineFast fs ((inc n a b).map f)
    .ok (xs, ys)

/-- the while loop (integration.py:97-115); returns `n` and the local variables -/
noncomputable def clenshawLoop (p : Par ℝ) (f : ℝ → ℝ) (a b : ℝ) (maxn : ℕ) :
    ℕ → ℕ → CState → Except PyErr (ℕ × CState)
  | fuel, n, s =>
    if n ≤ maxn then
      match fuel with
      | 0 => .error .recursion
      | fuel + 1 => do
        let coeffs ← clenshaw n
        let (nodes, fs) ← clenshawNodes f a b n s.nodes
        let d ← dot fs coeffs
        let I := d * (1 / 2) * (b - a)
        let s := { s with nodes := some (nodes, fs), val := some I }
        match s.prev with
        | none => clenshawLoop p f a b maxn fuel (2 * n - 1) { s with prev := some I }
        | some prev => do
          let s := { s with err := some |I - prev| }
          let (cm, ans) ← (s.cm.add |I - prev| I ()).test p
          if ans.stop then .ok (n, { s with cm := cm })
          else clenshawLoop p f a b maxn fuel (2 * n - 1) { s with cm := cm, prev := some I }
    else .ok (n, s)

/-- `integrate_clenshaw(f, a, b, maxn, debug_plot = debugPlot)` (integration.py:91-120).  The parameter
`debug_plot` hides the imported function of the same name, so the call in line 119 calls the parameter: a
`TypeError` for `True` (the default), or `UnboundLocalError` when an argument is not yet bound. -/
noncomputable def integrateClenshaw (p : Par ℝ) (f : ℝ → ℝ) (a b : ℝ) (maxn fuel : ℕ) (debugPlot : Bool) :
    Except PyErr (ℝ × ℝ) := do
  let (n, s) ← clenshawLoop p f a b maxn fuel 3 {}
  if debugPlot ∧ n ≥ maxn then
    match s.nodes with
    | none => .error .unbound
    | some _ => .error .typ
  else
    match s.val, s.err with
    | some I, some e => .ok (I, e)
    | _, _ => .error .unbound

/-! ### `integrate_fejer2_vector` -/

/-- the local variables: nodes, one row of values per component, `prevI`, `I`, `err`, the monitor -/
structure VState where
  nodes : Option (List ℝ × List (List ℝ)) := none
  prev : Option (List ℝ) := none
  val : Option (List ℝ) := none
  err : Option ℝ := none
  cm : State ℝ Unit := {}

/-- the values of the components at the nodes: the last index belongs to the nodes (integration.py:182) -/
def rows (fv : List (ℝ → ℝ)) (xs : List ℝ) : List (List ℝ) := fv.map fun f => xs.map f

/-- nodes and values of the next step (integration.py:180-188), `combine_interpolation_nodes_fast_vector`
(utils.py:78-90) for a vector-valued function: every row is combined -/
noncomputable def vectorNodes (fv : List (ℝ → ℝ)) (a b : ℝ) (n : ℕ) :
    Option (List ℝ × List (List ℝ)) → Except PyErr (List ℝ × List (List ℝ))
  | none => .ok (inner (cheb n a b), rows fv (inner (cheb n a b)))
  | some (nodes, fs) => do
    let xs ← combineFast (inc n a b) nodes
    let ys ← (List.zip (rows fv (inc n a b)) fs).mapM fun q => combineFast q.1 q.2
    .ok (xs, ys)

/-- the while loop (integration.py:178-197): the monitor gets the largest change of a component and the mean of
the absolute values; a function without components raises (maximum of an empty array) -/
noncomputable def vectorLoop (p : Par ℝ) (fv : List (ℝ → ℝ)) (a b : ℝ) (maxn : ℕ) :
    ℕ → ℕ → VState → Except PyErr VState
  | fuel, n, s =>
    if n ≤ maxn then
      match fuel with
      | 0 => .error .recursion
      | fuel + 1 => do
        let coeffs ← fejer2 n
        let (nodes, fs) ← vectorNodes fv a b n s.nodes
        let ds ← fs.mapM fun row => dot row coeffs
        let I := ds.map fun d => d * (b - a) / 2
        let s := { s with nodes := some (nodes, fs), val := some I }
        match s.prev with
        | none => vectorLoop p fv a b maxn fuel (2 * n - 1) { s with prev := some I }
        | some prev => do
          let e ← arrMax ((List.zipWith (· - ·) I prev).map (|·|))
          let s := { s with err := some e }
          let (cm, ans) ← (s.cm.add e ((I.map (|·|)).sum / I.length) ()).test p
          if ans.stop then .ok { s with cm := cm }
          else vectorLoop p fv a b maxn fuel (2 * n - 1) { s with cm := cm, prev := some I }
    else .ok s

/-- `integrate_fejer2_vector(f, a, b)` (integration.py:164-200) -/
noncomputable def integrateVector (p : Par ℝ) (fv : List (ℝ → ℝ)) (a b : ℝ) (maxn fuel : ℕ) :
    Except PyErr (List ℝ × ℝ) := do
  let s ← vectorLoop p fv a b maxn fuel 65 {}
  match s.val, s.err with
  | some I, some e => .ok (I, e)
  | _, _ => .error .unbound

end Rule
end Pacal
