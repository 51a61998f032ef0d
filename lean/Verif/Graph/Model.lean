import Verif.Base.Err
import Mathlib.Data.Finset.Basic
import Mathlib.Data.Finset.Union

/-!
Model of the object graph of random variables: `/repo/pacal/rv.py` (`RV`), the constructor and the
samplers of `/repo/pacal/distr.py`.

Objects are numbered in order of creation; the number stands for Python's object identity
(`RV.id()`, rv.py:34-43: ids of living objects are assumed to be distinct).  A recursion limit is an
explicit argument: the value `.error .recursion` is Python's `RecursionError`.
-/

namespace Pacal
namespace Graph
variable {V : Type}

/-- how a node produces samples: `raw` nodes call `rand_raw`, `op f` nodes call `rand_op`, which applies
`f` to the samples of the arguments (distr.py:588, 605, 813, 913, 933, 1128-1184) -/
inductive Kind (V : Type)
  | raw
  | op (f : List V → V)

/-- One random variable object.  `parents` is the attribute of that name (rv.py:18); `args` are the
attributes `d` or `d1, d2` used for sampling; `indep` is distr.py:53-56. -/
structure Node (V : Type) where
  parents : List ℕ
  args : List ℕ
  indep : Bool
  kind : Kind V

/-- all objects created so far -/
abbrev Heap (V : Type) := List (Node V)

/-- `RV.getAncestorIDs` (rv.py:49-57).  The set `anc` is shared and mutated by the recursive calls; in
line 55 the result of the call is the same set object. -/
def ancIDs (h : Heap V) : ℕ → ℕ → Finset ℕ → Except PyErr (Finset ℕ)
  | 0, _, _ => .error .recursion
  | k + 1, i, anc =>
    match h[i]? with
    | none => .error .attribute
    | some n => do
      let anc ← n.parents.foldlM
        (fun anc p => if p ∈ anc then .ok anc else ancIDs h k p anc) anc
      .ok (insert i anc)

/-- the loop of `Distr.__init__` (distr.py:69-76); the result tells whether the warning is issued -/
def checkLoop (h : Heap V) (k : ℕ) : List ℕ → Finset ℕ → Except PyErr Bool
  | [], _ => .ok false
  | p :: ps, anc => do
    let panc ← ancIDs h k p ∅
    if (panc ∩ anc).Nonempty then .ok true else checkLoop h k ps (anc ∪ panc)

/-- `Distr.__init__` (distr.py:46-76) with `params.general.warn_on_dependent = warn` for the given
parents: does it warn? -/
def initWarns (h : Heap V) (k : ℕ) (warn : Bool) (parents : List ℕ) : Except PyErr Bool :=
  if warn then checkLoop h k parents ∅ else .ok false

/-- `RV.getParentsFree` (rv.py:166-172) -/
def parentsFree (h : Heap V) : ℕ → ℕ → Except PyErr (Finset ℕ)
  | 0, _ => .error .recursion
  | k + 1, i =>
    match h[i]? with
    | none => .error .attribute
    | some n =>
      n.parents.foldlM (fun l p => do let r ← parentsFree h k p; .ok (l ∪ r))
        (if n.parents.length = 0 then {i} else ∅)

/-- `RV.getParentsDep` (rv.py:173-179) -/
def parentsDep (h : Heap V) : ℕ → ℕ → Except PyErr (Finset ℕ)
  | 0, _ => .error .recursion
  | k + 1, i =>
    match h[i]? with
    | none => .error .attribute
    | some n =>
      n.parents.foldlM (fun l p => do let r ← parentsDep h k p; .ok (l ∪ r))
        (if n.parents.length > 0 then {i} else ∅)

/-- `RV.getParentsAll` (rv.py:161-165); line 164 calls `getParentsDep` -/
def parentsAll (h : Heap V) (k : ℕ) (i : ℕ) : Except PyErr (Finset ℕ) :=
  match h[i]? with
  | none => .error .attribute
  | some n => n.parents.foldlM (fun l p => do let r ← parentsDep h k p; .ok (l ∪ r)) {i}

/-! ### sampling -/

/-- the dictionary `cache` -/
abbrev Cache (V : Type) := ℕ → Option V

/-- State of a sampling run: the cache (`none` is Python's `None`) and the log of raw draws -/
structure Smp (V : Type) where
  cache : Option (Cache V)
  log : List ℕ

/-- `rand_raw`: the source of randomness gives an arbitrary value to the `k`-th draw, which may depend on
the distribution it is drawn for -/
def draw (src : ℕ → ℕ → V) (i : ℕ) (log : List ℕ) : V × List ℕ := (src log.length i, log ++ [i])

/-- sample the arguments one after the other (`rand_op`, distr.py:1128-1131) -/
def randArgs (rand : ℕ → Smp V → Except PyErr (V × Smp V)) :
    List ℕ → Smp V → Except PyErr (List V × Smp V)
  | [], s => .ok ([], s)
  | a :: as, s => do
    let (v, s) ← rand a s
    let (vs, s) ← randArgs rand as s
    .ok (v :: vs, s)

/-- `Distr.rand` (distr.py:306-317) and `OpDistr.rand` (distr.py:551-558).  A cache created by a call
that was given `None` is not visible to the caller. -/
def rand (h : Heap V) (src : ℕ → ℕ → V) : ℕ → ℕ → Smp V → Except PyErr (V × Smp V)
  | 0, _, _ => .error .recursion
  | k + 1, i, s =>
    match h[i]? with
    | none => .error .attribute
    | some n =>
      if n.indep then
        match n.kind with
        | .raw => let (v, log) := draw src i s.log; .ok (v, ⟨s.cache, log⟩)
        | .op f => do
          let (vs, s') ← randArgs (rand h src k) n.args ⟨none, s.log⟩
          .ok (f vs, ⟨s.cache, s'.log⟩)
      else
        let c : Cache V := s.cache.getD (fun _ => none)
        match c i with
        | some v => .ok (v, s)
        | none => do
          let (v, s') ← (match n.kind with
            | .raw => let (v, log) := draw src i s.log; .ok (v, ⟨some c, log⟩)
            | .op f => do
              let (vs, s') ← randArgs (rand h src k) n.args ⟨some c, s.log⟩
              .ok (f vs, s') : Except PyErr (V × Smp V))
          .ok (v, ⟨s.cache.bind fun _ => s'.cache.map fun c' => Function.update c' i (some v), s'.log⟩)

/-! ### histories -/

/-- operations of a user session that create or change objects -/
inductive Cmd (V : Type)
  | leaf (indep : Bool)
  | op (f : List V → V) (args : List ℕ) (indep : Bool)
  | sign (d : ℕ)
  | makeFree (i : ℕ)
  | setIndep (i : ℕ) (b : Bool)

/-- One step: the new heap and whether a warning was issued.  `op` covers every class that passes its
arguments to `Distr.__init__` as parents (distr.py:560-1187); `sign` is `SignDistr` (distr.py:1101-1116),
whose sampler is the raw sampler of a discrete distribution and whose parent is set afterwards; `makeFree`
is rv.py:77-81.  Arguments that do not exist raise. -/
def step (k : ℕ) (warn : Bool) (h : Heap V) : Cmd V → Except PyErr (Heap V × Bool)
  | .leaf b => .ok (h ++ [⟨[], [], b, .raw⟩], false)
  | .op f args b => do
    if args.all (· < h.length) then
      let w ← initWarns h k warn args
      .ok (h ++ [⟨args, args, b, .op f⟩], w)
    else .error .attribute
  | .sign d =>
    if d < h.length then .ok (h ++ [⟨[d], [d], true, .raw⟩], false) else .error .attribute
  | .makeFree i =>
    match h[i]? with
    | none => .error .attribute
    | some n => .ok (h.set i { n with parents := [] }, false)
  | .setIndep i b =>
    match h[i]? with
    | none => .error .attribute
    | some n => .ok (h.set i { n with indep := b }, false)

/-- a whole session, starting with the given heap; the result contains the warning of each step -/
def run (k : ℕ) (warn : Bool) : Heap V → List (Cmd V) → Except PyErr (Heap V × List Bool)
  | h, [] => .ok (h, [])
  | h, c :: cs => do
    let (h, w) ← step k warn h c
    let (h, ws) ← run k warn h cs
    .ok (h, w :: ws)

end Graph
end Pacal
