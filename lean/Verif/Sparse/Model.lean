import Verif.Base.Err
import Verif.Iid.Model
import Verif.Nodes.Model

/-!
Model of the sparse grid interpolator (`/repo/pacal/depvars/sparse_grids.py`) and of the evaluation on a dense grid
(`/repo/pacal/bary_interp.pyx:104-173`).

Arithmetic is exact.  Arrays of evaluation points are treated one point at a time: all operations on them are elementwise
in the axis of points.  The interpolated function is applied to one node at a time.
-/

namespace Pacal
namespace Sparse
open Nodes

/-- an access to an array.  Outside of it numpy raises `IndexError`; the behaviour of the compiled code is undefined and
treated as an error. -/
def access {α : Type*} (l : List α) (i : ℕ) : Except PyErr α :=
  match l[i]? with
  | some a => .ok a
  | none => .error .index

/-! ### index sets -/

/-- `gen_partitions(nd, d)` (sparse_grids.py:25-33).  `range(1, d)` is `1, …, d-1`.  For `nd = 0` all branches of the
recursion end with an empty range. -/
def genPartitions : ℕ → ℕ → List (List ℕ)
  | 0, _ => []
  | 1, d => [[d]]
  | nd + 2, d => (List.range' 1 (d - 1)).flatMap fun x => (genPartitions (nd + 1) (d - x)).map (x :: ·)

/-- `gen_Q(q, d)` (sparse_grids.py:35-44): `range(q-d+1, q+1)` has `d` elements -/
def genQ (q d : ℕ) : Except PyErr (List (List ℕ)) :=
  if q ≥ d then .ok ((List.range' (q - d + 1) d).flatMap (genPartitions d)) else .error .assertion

/-- the coefficient of a subgrid with index sum `si` (sparse_grids.py:188-189) -/
def coef (q d si : ℕ) : ℚ := (-1) ^ (q - si) * Iid.binomialCoeff ((d : ℤ) - 1) ((q : ℤ) - si)

/-! ### nodes -/

/-- `range(0, n, s)` for `s > 0` -/
def steps (n s : ℕ) : List ℕ := (List.range ((n + s - 1) / s)).map (· * s)

/-- `itertools.product` -/
def product {α : Type*} : List (List α) → List (List α)
  | [] => [[]]
  | l :: ls => l.flatMap fun a => (product ls).map (a :: ·)

/-- `nodes` and `node_inds_map` of `get_nodes` -/
structure Table where
  nodes : List (List ℕ)
  map : List (List ℕ × ℕ)

/-- look up a node, adding it if it is new (sparse_grids.py:180-185) -/
def Table.add (t : Table) (n : List ℕ) : Table × ℕ :=
  match t.map.lookup n with
  | some i => (t, i)
  | none => (⟨t.nodes ++ [n], (n, t.nodes.length) :: t.map⟩, t.nodes.length)

/-- the loop over the nodes of a subgrid (sparse_grids.py:178-186) -/
def Table.addAll (t : Table) : List (List ℕ) → Table × List ℕ
  | [] => (t, [])
  | n :: ns =>
    let r := t.add n
    let r' := r.1.addAll ns
    (r'.1, r.2 :: r'.2)

/-- an entry of `subgrid_map`: the key, the coefficient and the indices of the nodes -/
structure Sub where
  p : List ℕ
  c : ℚ
  idx : List ℕ

/-- the loop of `get_nodes` over the partitions (sparse_grids.py:166-190); `maxd` is `self.exps[max_q]`.  (`self.init_ni`
is 11, so the branch of line 173 is not taken.)  `subgrid_map` is the list of its items in order of insertion: the keys are
distinct (`C43_index_set`). -/
def subgrids (q d maxd : ℕ) : Table → List (List ℕ) → Table × List Sub
  | t, [] => (t, [])
  | t, p :: ps =>
    let r := t.addAll (product (p.map fun e => steps maxd (2 ^ (q - d + 1 - e))))
    let r' := subgrids q d maxd r.1 ps
    (r'.1, ⟨p, coef q d p.sum, r.2⟩ :: r'.2)

/-- `get_nodes(q)` (sparse_grids.py:159-194) -/
def getNodes (d : ℕ) (exps : List ℕ) (q : ℕ) : Except PyErr (List (List ℕ) × List Sub) :=
  (genQ q d).bind fun ps =>
    (access exps (q - d + 1)).bind fun maxd =>
      let r := subgrids q d maxd ⟨[], []⟩ ps
      .ok (r.1.nodes, r.2)

/-! ### the adaptive interpolator -/

/-- the interpolator: dimension, box (one pair per axis), level, number of nodes of the next level (`ni`), numbers of nodes
per level (`exps`, entry 0 is unused), nodes, subgrids, values.  `cheb_weights_cache[e]` and `xroot_cache[j][e]` are
functions of `exps[e]` (sparse_grids.py:77-79, 103-105) and are not stored. -/
structure St where
  d : ℕ
  box : List (ℝ × ℝ)
  q : ℕ
  ni : ℕ
  exps : List ℕ
  nodes : List (List ℕ)
  subs : List Sub
  ys : List ℝ

/-- `[self.xroot_cache[j][m][n[j]] for j in …]`: the coordinates of the node `n`, `k` being `self.exps[m]` -/
noncomputable def coords (box : List (ℝ × ℝ)) (k : ℕ) (n : List ℕ) : List ℝ :=
  List.zipWith (fun ab i => (cheb k ab.1 ab.2).getD i 0) box n

/-- `self.exps` and `ni` after the loop of `adaptive_init` (sparse_grids.py:70-84), which runs twice because `q = d` -/
def initExps : List ℕ × ℕ := ([0, 11, 21], 41)

/-- `adaptive_init` (sparse_grids.py:64-88) -/
noncomputable def init (f : List ℝ → ℝ) (d : ℕ) (box : List (ℝ × ℝ)) : Except PyErr St :=
  (getNodes d initExps.1 d).bind fun r =>
    (access initExps.1 (d - d + 1)).bind fun k => .ok ⟨d, box, d, initExps.2, initExps.1, r.1, r.2, r.1.map fun n => f (coords box k n)⟩

/-- the value for a node of the refined grid (sparse_grids.py:135-140).  `Y` keeps its last value if the node is neither old
nor new; without a last value this is `UnboundLocalError`. -/
def newValue (old inc : List (List ℕ)) (ys incYs : List ℝ) (n : List ℕ) (Y : Option ℝ) : Option ℝ :=
  let Y := if n ∈ old then ys[old.idxOf n]? else Y
  if n ∈ inc then incYs[inc.idxOf n]? else Y

/-- the loop over the nodes of the refined grid (sparse_grids.py:135-140) -/
def newValues (old inc : List (List ℕ)) (ys incYs : List ℝ) : List (List ℕ) → Option ℝ → Except PyErr (List ℝ)
  | [], _ => .ok []
  | n :: ns, Y =>
    match newValue old inc ys incYs n Y with
    | none => .error .unbound
    | some y => (newValues old inc ys incYs ns (some y)).map (y :: ·)

/-- the weights of one axis at the point `x` (sparse_grids.py:268-278): the indicator of the node if `x` is one, the
barycentric factors otherwise -/
noncomputable def axisWeights (xs ws : List ℝ) (x : ℝ) : List ℝ :=
  if x ∈ xs then xs.map fun xi => if x - xi = 0 then 1 else 0
  else List.zipWith (fun xi w => w / (x - xi)) xs ws

/-- one contraction (sparse_grids.py:279-289): rows of the length of `w` are multiplied by `w` and summed, and divided by
the sum of `w`.  `reshape` raises `ValueError` if the length does not fit (also for an empty `w`). -/
noncomputable def contract (w fs : List ℝ) : Except PyErr (List ℝ) :=
  if w.length = 0 ∨ fs.length % w.length ≠ 0 then .error .value
  else .ok ((List.range (fs.length / w.length)).map fun r =>
    ((List.range w.length).map fun k => w.getD k 0 * fs.getD (r * w.length + k) 0).sum / w.sum)

/-- the loop of `full_grid_interp_new` (sparse_grids.py:264-289): the axes are contracted from the last to the first -/
noncomputable def contractAll : List (List ℝ) → List ℝ → Except PyErr (List ℝ)
  | [], fs => .ok fs
  | w :: ws, fs => (contractAll ws fs).bind (contract w)

/-- `full_grid_interp_new` (sparse_grids.py:261-291) with `fs[:,0]` at the end -/
noncomputable def fullGrid (ws : List (List ℝ)) (fs : List ℝ) : Except PyErr ℝ :=
  (contractAll ws fs).bind fun l => access l 0

/-- `self.Ys[ni]` -/
def gather (ys : List ℝ) : List ℕ → Except PyErr (List ℝ)
  | [] => .ok []
  | i :: is =>
    (access ys i).bind fun y => (gather ys is).map (y :: ·)

/-- the weights of all axes for the subgrid `p` at the point `X` (sparse_grids.py:264-280) -/
noncomputable def subWeights (exps : List ℕ) : List ℕ → List (ℝ × ℝ) → List ℝ → Except PyErr (List (List ℝ))
  | [], _, _ => .ok []
  | e :: p, ab :: box, x :: X =>
    (access exps e).bind fun k => (subWeights exps p box X).map (axisWeights (cheb k ab.1 ab.2) (chebWeights k) x :: ·)
  | _ :: _, _, _ => .error .index

/-- the loop of `interp_at` (sparse_grids.py:206-212) -/
noncomputable def evalSubs (s : St) (X : List ℝ) : List Sub → Except PyErr ℝ
  | [] => .ok 0
  | g :: gs =>
    (subWeights s.exps g.p s.box X).bind fun ws =>
    (gather s.ys g.idx).bind fun fs =>
    (fullGrid ws fs).bind fun yi =>
    (evalSubs s X gs).map fun y => (g.c : ℝ) * yi + y

/-- `interp_at(*X)` (sparse_grids.py:196-217) for one point -/
noncomputable def interpAt (s : St) (X : List ℝ) : Except PyErr ℝ := evalSubs s X s.subs

/-- lexicographic order of tuples, for `inc_nodes.sort()` -/
def lexLe : List ℕ → List ℕ → Bool
  | [], _ => true
  | _ :: _, [] => false
  | a :: as, b :: bs => a < b || (a == b && lexLe as bs)

/-- the nodes of the refined grid not in the old one, sorted (sparse_grids.py:112-114) -/
def incNodes (old new : List (List ℕ)) : List (List ℕ) := ((new.filter (· ∉ old)).dedup).mergeSort lexLe

/-- one round of `adaptive_interp` up to the test of convergence (sparse_grids.py:101-124, 145-157) and the update after it
(126-143).  The maximum of an empty array raises `ValueError`.  `stop` is the decision of the convergence monitor, given the errors and the largest values seen so far
(modelled in `Util/Monitor.lean`).  Result: the state, the monitor's history, and whether the loop goes on. -/
noncomputable def round (f : List ℝ → ℝ) (stop : List (ℝ × ℝ) → Bool) (s : St) (hist : List (ℝ × ℝ)) :
    Except PyErr (St × List (ℝ × ℝ) × Bool) :=
  let exps := s.exps ++ [s.ni]
  let ni := s.ni * 2 - 1
  let q := s.q + 1
  (getNodes s.d exps q).bind fun r =>
    (access exps (q - s.d + 1)).bind fun k =>
      let old := s.nodes.map fun n => n.map (2 * ·)
      let inc := incNodes old r.1
      let incYs := inc.map fun n => f (coords s.box k n)
      if inc = [] then .error .value else
      ((inc.map (coords s.box k)).mapM (interpAt { s with exps := exps })).bind fun vals =>
      let err := (List.zipWith (fun v y => |v - y|) vals incYs).foldl max 0
      let maxy := ((incYs ++ s.ys).map abs).foldl max 0
      let hist := hist ++ [(err, maxy)]
      if stop hist then .ok ({ s with exps := exps }, hist, false)
      else (newValues old inc s.ys incYs r.1 none).map fun ys =>
        (⟨s.d, s.box, q, ni, exps, r.1, r.2, ys⟩, hist, true)

/-- the loop of `adaptive_interp` (sparse_grids.py:90-143): `while q <= maxq`, the first argument is the number of rounds
left.  (The local `q` equals `self.q` at the start of each round: the loop ends when they differ.) -/
noncomputable def adapt (f : List ℝ → ℝ) (stop : List (ℝ × ℝ) → Bool) : ℕ → St → List (ℝ × ℝ) → Except PyErr St
  | 0, s, _ => .ok s
  | k + 1, s, hist =>
    (round f stop s hist).bind fun r => if r.2.2 then adapt f stop k r.1 r.2.1 else .ok r.1

/-- `AdaptiveSparseGridInterpolator(f, d, a, b)` (sparse_grids.py:56-62) -/
noncomputable def build (f : List ℝ → ℝ) (stop : List (ℝ × ℝ) → Bool) (d : ℕ) (box : List (ℝ × ℝ)) (maxq : ℕ) :
    Except PyErr St :=
  (init f d box).bind fun s => adapt f stop (maxq + 1 - d) s []

/-! ### the compiled evaluation on a dense grid -/

/-- advance to the next index (bary_interp.pyx:155-160): the loop runs from the last axis to the first and stops at the first
one that is not exhausted; the flag says that all axes were exhausted -/
def advance : List ℕ → List ℕ → List ℕ × Bool
  | m :: ms, i :: is =>
    let r := advance ms is
    if r.2 then if i + 1 < m then ((i + 1) :: r.1, false) else (0 :: r.1, true)
    else (i :: r.1, false)
  | _, _ => ([], true)

/-- the factors of one grid point (bary_interp.pyx:147-152): `temp` is multiplied by the factors of all axes -/
def factors {K : Type*} [Mul K] : List (List K) → List ℕ → K → Except PyErr K
  | w :: ws, i :: is, t => (access w i).bind fun x => factors ws is (t * x)
  | _, _, t => .ok t

/-- the loop over the grid points (bary_interp.pyx:146-161) -/
def denseLoop {K : Type*} [Add K] [Mul K] (ws : List (List K)) (ms : List ℕ) : List K → List ℕ → K → Except PyErr K
  | [], _, num => .ok num
  | f :: fs, idx, num => (factors ws idx f).bind fun t => denseLoop ws ms fs (advance ms idx).1 (num + t)

/-- `c_dense_grid_interp` (bary_interp.pyx:106-173) for one point.  The array of pointers is allocated with `M` entries, the
number of values, and `d` of them are written (122, 125-128): with more axes than values this is outside of the array.
Without axes `one_over_x_m_xi_list[0]` raises `IndexError`. -/
def dense {K : Type*} [Add K] [Mul K] [Zero K] (ws : List (List K)) (fs : List K) : Except PyErr K :=
  if ws = [] then .error .index
  else if fs.length < ws.length then .error .index
  else denseLoop ws (ws.map List.length) fs (ws.map fun _ => 0) 0

end Sparse
end Pacal
