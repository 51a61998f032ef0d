import Verif.Base.Err
import Mathlib.Algebra.Order.Field.Basic
import Mathlib.Data.List.Sort

/-!
Model of `convergence_monitor` (`/repo/pacal/utils.py:312-379`) and of the adaptive loops that use it:
`integrate_fejer2` (`/repo/pacal/integration.py:122-161`),
`AdaptiveInterpolator.adaptive_interp` (`/repo/pacal/interpolation.py:203-230`) and
`AdaptiveInterpolator1.adaptive_interp` (346-373).

Numbers are elements of an ordered field (no `nan`); debug output and plots are left out.  A `while` loop
is a recursion with a step budget: running out of budget is the value `.error .recursion`.
-/

namespace Pacal
namespace Mon
variable {K E X : Type*} [Field K] [LinearOrder K] [IsStrictOrderedRing K]

/-- the attributes copied from `params.convergence` (utils.py:318-324) -/
structure Par (K : Type*) where
  abstol : K
  reltol : K
  minQuitIter : ℕ
  minQuitNoImprovement : ℕ
  minImprovementRatio : K
  forceNonzero : Bool

/-- one entry of `ae_list`, `y_list`, `e_list` -/
structure Rec (K E : Type*) where
  ae : K
  y : K
  e : E
  deriving DecidableEq

/-- the state of a monitor (utils.py:326-332) -/
structure State (K E : Type*) where
  recs : List (Rec K E) := []
  converged : Bool := false
  nNoImprovement : ℕ := 0
  lastGood : ℕ := 0
  deriving DecidableEq

/-- the answers of `test_convergence` -/
inductive Answer
  | converged | didNotConverge | cont
  deriving DecidableEq, Repr

/-- first component of the answer: stop? -/
def Answer.stop : Answer → Bool
  | .cont => false
  | _ => true

/-- `add` (utils.py:333-336) -/
def State.add (s : State K E) (abserr yest : K) (extra : E) : State K E :=
  { s with recs := s.recs ++ [⟨abserr, yest, extra⟩] }

/-- `test_convergence` (utils.py:337-354); `y_list[-1]` of an empty list raises -/
def State.test (p : Par K) (s : State K E) : Except PyErr (State K E × Answer) :=
  match s.recs.getLast? with
  | none => .error .index
  | some last =>
    let yest := |last.y|
    let ae := last.ae
    let step := s.recs.length
    let tol := max p.abstol (yest * p.reltol)
    if ae ≤ tol ∧ (p.forceNonzero = false ∨ 0 < yest) then
      .ok ({ s with converged := true }, .converged)
    else
      match s.recs[s.lastGood]? with
      | none => .error .index
      | some good =>
        let s := if ae < p.minImprovementRatio * good.ae then
            { s with lastGood := s.recs.length - 1, nNoImprovement := 0 }
          else { s with nNoImprovement := s.nNoImprovement + 1 }
        if step ≥ max 2 p.minQuitIter ∧ s.nNoImprovement ≥ p.minQuitNoImprovement then
          .ok (s, .didNotConverge)
        else .ok (s, .cont)

/-- relative error of a record, `big` is `finfo(double).max` (utils.py:361-364, 369-372) -/
def relErr (big : K) (r : Rec K E) : K := if r.y = 0 then big else r.ae / |r.y|

/-- the loop of `get_best_result` (utils.py:366-377) -/
def bestLoop (big decr : K) (best : Rec K E) : List (Rec K E) → Rec K E
  | [] => best
  | r :: rs => bestLoop big decr (if relErr big r < decr * relErr big best then r else best) rs

/-- `get_best_result` (utils.py:355-378) -/
def State.best (big decr : K) (s : State K E) : Except PyErr (Rec K E) :=
  if s.converged then
    match s.recs.getLast? with
    | none => .error .index
    | some r => .ok r
  else
    match s.recs with
    | [] => .error .index
    | r :: rs => .ok (bestLoop big decr r rs)

/-- A user of the monitor: add a value and test, until the test says stop.  Returns the states after each
test. -/
def State.feed (p : Par K) (s : State K E) : List (Rec K E) → Except PyErr (State K E)
  | [] => .ok s
  | r :: rs => do
    let (s, a) ← (s.add r.ae r.y r.e).test p
    if a = .cont then State.feed p s rs else .ok s

/-! ### adaptive integration -/

/-- `combine_interpolation_nodes_fast` (utils.py:68-77): `c[::2] = old; c[1::2] = new` -/
def interleave {α : Type*} : List α → List α → List α
  | [], ys => ys
  | x :: xs, ys => x :: interleave ys xs
termination_by xs ys => xs.length + ys.length

/-- numpy accepts the two slice assignments iff the lengths fit (a source of length 1 would be broadcast;
that case does not occur for the node counts used) -/
def combineFast {α : Type*} (old new : List α) : Except PyErr (List α) :=
  if old.length = new.length ∨ old.length = new.length + 1 then .ok (interleave old new)
  else .error .value

/-- `np.dot` -/
def dot (xs ys : List K) : Except PyErr K :=
  if xs.length = ys.length then .ok (List.zipWith (· * ·) xs ys).sum else .error .value

/-- what the loop needs to know about the node families (integration.py:136-147): `cheb_nodes(n, a, b)`,
`incremental_cheb_nodes(n, a, b)`, `fejer2_coefficients(n)` -/
structure Grid (K : Type*) where
  cheb : ℕ → List K
  inc : ℕ → List K
  coef : ℕ → List K

/-- `xs[1:-1]` -/
def inner {α : Type*} (xs : List α) : List α := xs.tail.dropLast

/-- loop state: nodes and values so far, previous estimate, monitor; and the list of all estimates made
(a ghost variable) -/
structure FState (K : Type*) where
  nodes : Option (List K × List K) := none
  prev : Option K := none
  cm : State K Unit := {}
  ests : List (ℕ × K) := []

/-- nodes and values of the next step (integration.py:137-145); note the reversed roles of old and new -/
def fejerNodes (g : Grid K) (f : K → K) (n : ℕ) : Option (List K × List K) → Except PyErr (List K × List K)
  | none => .ok (inner (g.cheb n), (inner (g.cheb n)).map f)
  | some (nodes, fs) => do
    let xs ← combineFast (g.inc n) nodes
    let ys ← combineFast ((g.inc n).map f) fs
    .ok (xs, ys)

/-- the while loop of `integrate_fejer2` (integration.py:135-156) -/
def fejerLoop (p : Par K) (g : Grid K) (f : K → K) (a b : K) (maxn : ℕ) :
    ℕ → ℕ → FState K → Except PyErr (FState K)
  | fuel, n, s =>
    if n ≤ maxn then
      match fuel with
      | 0 => .error .recursion
      | fuel + 1 => do
        let (nodes, fs) ← fejerNodes g f n s.nodes
        let d ← dot fs (g.coef n)
        let I := d * (b - a) / 2
        let s := { s with nodes := some (nodes, fs), ests := s.ests ++ [(n, I)] }
        match s.prev with
        | none => fejerLoop p g f a b maxn fuel (2 * n - 1) { s with prev := some I }
        | some prev => do
          let (cm, ans) ← (s.cm.add |I - prev| I ()).test p
          if ans.stop then .ok { s with cm := cm }
          else fejerLoop p g f a b maxn fuel (2 * n - 1) { s with cm := cm, prev := some I }
    else .ok s

/-- `integrate_fejer2` (integration.py:122-161): the best estimate and its error; `err_decr = 0.75` -/
def integrateFejer2 (big decr : K) (p : Par K) (g : Grid K) (f : K → K) (a b : K) (maxn fuel : ℕ) :
    Except PyErr (K × K × List (ℕ × K)) := do
  let s ← fejerLoop p g f a b maxn fuel 65 {}
  let r ← s.cm.best big decr
  .ok (r.y, r.ae, s.ests)

/-! ### adaptive interpolation -/

/-- what the loop needs to know about an interpolator class: its node families, the combination of old and
new points in `add_nodes` (points with their values), and the interpolant through given points -/
structure Interp (K : Type*) where
  nodes : ℕ → List K
  inc : ℕ → List K
  combine : List (K × K) → List (K × K) → Except PyErr (List (K × K))
  interp : List (K × K) → K → K

/-- `combine_interpolation_nodes` (utils.py:62-67): Python's `sorted` of the pairs (lexicographic order) -/
def combineSort (old new : List (K × K)) : Except PyErr (List (K × K)) :=
  .ok ((old ++ new).insertionSort fun p q => p.1 < q.1 ∨ (p.1 = q.1 ∧ p.2 ≤ q.2))

/-- `array.max()`; raises on an empty array -/
def arrMax : List K → Except PyErr K
  | [] => .error .value
  | x :: xs => .ok (xs.foldl max x)

/-- `test_accuracy` (interpolation.py:231-236, 374-379) -/
def testAccuracy (i : Interp K) (pts new : List (K × K)) : Except PyErr K :=
  arrMax (new.map fun q => |i.interp pts q.1 - q.2|)

/-- loop state: `n`, the points `(Xs, Ys)`, `err` (`none`: the variable is unbound), the monitor, its last
answer, and all nodes at which the function was evaluated (a ghost variable) -/
structure IState (K : Type*) where
  n : ℕ
  pts : List (K × K)
  err : Option K := none
  cm : State K Unit := {}
  ans : Answer := .cont
  last : List K := []

/-- the points `(x, f x)` -/
def graph (f : K → K) (xs : List K) : List (K × K) := xs.map fun x => (x, f x)

/-- the while loop of `adaptive_interp` (interpolation.py:210-225 with `next n = 2 * n - 1`,
353-368 with `next n = 3 * n`); `last` records the test nodes -/
def interpLoop (p : Par K) (i : Interp K) (next : ℕ → ℕ) (f : K → K) (maxn : ℕ) :
    ℕ → IState K → Except PyErr (IState K)
  | fuel, s =>
    if s.n ≤ maxn then
      match fuel with
      | 0 => .error .recursion
      | fuel + 1 => do
        let new := graph f (i.inc (next s.n))
        let err ← testAccuracy i s.pts new
        let m1 ← arrMax (new.map (|·.2|))
        let m2 ← arrMax (s.pts.map (|·.2|))
        let (cm, ans) ← (s.cm.add err (max m1 m2) ()).test p
        if ans.stop then
          .ok { s with err := some err, cm := cm, ans := ans, last := i.inc (next s.n) }
        else do
          let pts ← i.combine s.pts new
          interpLoop p i next f maxn fuel
            { n := next s.n, pts := pts, err := some err, cm := cm, ans := ans, last := i.inc (next s.n) }
    else .ok s

/-- `adaptive_init` and `adaptive_interp`: start with `n₀` nodes (3, resp. 2 in the second class); the final
assignment `self.err = err` raises if the loop was never entered -/
def adaptiveInterp (p : Par K) (i : Interp K) (next : ℕ → ℕ) (n₀ : ℕ) (f : K → K) (maxn fuel : ℕ) :
    Except PyErr (IState K × K) := do
  let s ← interpLoop p i next f maxn fuel { n := n₀, pts := graph f (i.nodes n₀) }
  match s.err with
  | none => .error .unbound
  | some e => .ok (s, e)

end Mon
end Pacal
