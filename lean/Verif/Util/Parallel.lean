import Verif.Base.Err
import Mathlib.Data.List.Perm.Basic
import Mathlib.Data.Nat.Notation

/-!
Model of parallel evaluation: `list_map`, `par_map`, `get_parmap` (`/repo/pacal/utils.py:610-633`), on top
of a model of `multiprocessing.Pool.map` of the Python standard library (CPython `Lib/multiprocessing/pool.py`,
`_map_async`, `mapstar`, `MapResult._set`; not part of the repository, from its documentation and source):
the input is cut into chunks, each worker maps a chunk and stops at the first exception, and results arrive
in an arbitrary order.  The mapped function is a function of its argument (`f : α → Except ε β`).
-/

namespace Pacal
namespace Par
variable {α β ε : Type}

/-- `list_map` (utils.py:610-612): `list(map(f, x))` -/
def listMap (f : α → Except ε β) : List α → Except ε (List β)
  | [] => .ok []
  | x :: xs => do
    let y ← f x
    let ys ← listMap f xs
    .ok (y :: ys)

/-- the task with number `i` of `Pool.map` with chunk size `c`: the arguments `i*c, …, (i+1)*c - 1` -/
def chunk (c i : ℕ) (xs : List α) : List α := (xs.drop (i * c)).take c

/-- number of tasks -/
def nChunks (c n : ℕ) : ℕ := (n + c - 1) / c

/-- `Pool._map_async`: chunk size for `n` items and `procs` workers -/
def chunkSize (n procs : ℕ) : ℕ := if n % (procs * 4) = 0 then n / (procs * 4) else n / (procs * 4) + 1

/-- `MapResult`: the list of values, or the first exception that arrived -/
inductive MapState (β ε : Type)
  | value (v : List (Option β))
  | failed (e : ε)

/-- `MapResult._set(i, (success, result))`: store the slice, or the first exception -/
def MapState.set (c : ℕ) (s : MapState β ε) (i : ℕ) (result : Except ε (List β)) : MapState β ε :=
  match s, result with
  | .value v, .ok ys => .value (v.take (i * c) ++ ys.map some ++ v.drop ((i + 1) * c))
  | .value _, .error e => .failed e
  | .failed e, _ => .failed e

/-- the results arrive in the order `order` -/
def collect (c : ℕ) (f : α → Except ε β) (xs : List α) (order : List ℕ) : MapState β ε :=
  order.foldl (fun s i => s.set c i (listMap f (chunk c i xs))) (.value (List.replicate xs.length none))

/-- `Pool.map`: the value after all results have arrived -/
def poolMap (c : ℕ) (order : List ℕ) (f : α → Except ε β) (xs : List α) : Except ε (List (Option β)) :=
  match collect c f xs order with
  | .value v => .ok v
  | .failed e => .error e

/-- which map function is used -/
inductive MapKind
  | list | pool
  deriving DecidableEq

/-- `get_parmap` (utils.py:621-633).  `worker`: the name of the current process starts with
`Pacal__worker__` (set by `init_pacal_thread`, utils.py:617-620); `hasPool`: `params.general.process_pool`
is not `None`.  Returns the map function and whether there is a pool afterwards. -/
def getParmap (parallel worker hasPool : Bool) : MapKind × Bool :=
  if parallel then
    if worker then (.list, hasPool) else (.pool, true)
  else (.list, hasPool)

/-- `par_map` (utils.py:613-616): short lists are mapped directly, otherwise the pool must exist -/
def parMapKind (n : ℕ) (hasPool : Bool) : Except PyErr MapKind :=
  if n < 100 then .ok .list else if hasPool then .ok .pool else .error .attribute

/-- apply the chosen map function with some chunk size and schedule -/
def apply (k : MapKind) (c : ℕ) (order : List ℕ) (f : α → Except ε β) (xs : List α) :
    Except ε (List (Option β)) :=
  match k with
  | .list => (listMap f xs).map (List.map some)
  | .pool => poolMap c order f xs

end Par
end Pacal
