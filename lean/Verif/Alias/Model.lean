import Verif.Segments.Model
import Mathlib.Logic.Function.Basic

/-!
Model of piecewise functions as Python objects (`/repo/pacal/segments.py`, `/repo/pacal/standard_distr.py`).  The other models
treat a piecewise function as the list of its pieces, a value.  In the program it is an object whose attribute `segments` refers to
a list object, the list refers to piece objects, `addSegment` changes both the list and the atoms in it, and
`PiecewiseFunction.__init__` has the mutable default argument `segments = []` (segments.py:998).  Here lists and pieces live on a
heap, so that two functions may share a list or an atom.

Simplifications: the attributes `a`, `b` of pieces and `f` of continuous pieces are never assigned after construction, only
`seg.f` of atoms (segments.py:1091, 1567; line 1667 of `op_diracs` and indeparith.py:996 change an atom of a function that has just been
created and are not modelled).  The attribute `breaks` (segments.py:1100) is not modelled.
-/

namespace Pacal
namespace Alias
variable {K : Type*} [Field K] [LinearOrder K]

/-- the heap: piece objects with addresses below `next`, and list objects of references to pieces with addresses below `top` -/
structure Heap (K : Type*) where
  segs : ℕ → Seg K
  next : ℕ
  lists : ℕ → List ℕ
  top : ℕ

/-- The heap when the module is loaded: the list of the default argument `segments = []` (segments.py:998), which has the
address 0, and nothing else.  (Unused addresses hold an atom of mass 0.) -/
def Heap.start : Heap K := ⟨fun _ => .dirac 0 0, 0, fun _ => [], 1⟩

namespace Heap

/-- the pieces referred to by the list `L` -/
def content (h : Heap K) (L : ℕ) : PF K := (h.lists L).map h.segs

/-- creation of a piece object; its address is `h.next` -/
def alloc (h : Heap K) (s : Seg K) : Heap K := { h with segs := Function.update h.segs h.next s, next := h.next + 1 }

/-- creation of several piece objects -/
def allocAll (h : Heap K) : List (Seg K) → Heap K
  | [] => h
  | s :: ss => (h.alloc s).allocAll ss

/-- creation of an empty list object; its address is `h.top` -/
def newList (h : Heap K) : Heap K := { h with lists := Function.update h.lists h.top [], top := h.top + 1 }

/-- `seg.f += m` for the object at the address `r` (segments.py:1091, 1567) -/
def grow (h : Heap K) (r : ℕ) (m : K) : Heap K :=
  match h.segs r with
  | .dirac a m' => { h with segs := Function.update h.segs r (.dirac a (m' + m)) }
  | _ => h

/-- `bisect.insort(self.segments, segment)` (segments.py:1099): the reference is inserted into the list object -/
def insort (h : Heap K) (L r : ℕ) : Heap K :=
  let i := bisectBy (fun y => !(Seg.lt (h.segs r) y)) (h.content L)
  { h with lists := Function.update h.lists L ((h.lists L).take i ++ r :: (h.lists L).drop i) }

/-- `addSegment` after the loop over the atoms (segments.py:1093-1099); `none`: the assert fails.  An atom which is not comparable
with the piece found is replaced by a new atom object (line 1097). -/
def place (h : Heap K) (L r : ℕ) : Option (Heap K) :=
  match (h.content L)[bisectLeft Seg.lt (h.content L) (h.segs r)]? with
  | none => some (h.insort L r)
  | some t =>
    if t.gt (h.segs r) || (h.segs r).gt t then some (h.insort L r)
    else
      match h.segs r, t.lo with
      | .dirac _ m, .fin a =>
        if t.gt (.dirac a m) || Seg.gt (.dirac a m) t then some ((h.alloc (.dirac a m)).insort L h.next) else none
      | _, _ => none

end Heap

/-- the first atom of the list whose place satisfies `p` (the loops of segments.py:1089-1092 and 1533-1537) -/
def firstAtom (p : K → Prop) [DecidablePred p] (segs : ℕ → Seg K) : List ℕ → Option ℕ
  | [] => none
  | r :: rs =>
    match segs r with
    | .dirac a _ => if p a then some r else firstAtom p segs rs
    | _ => firstAtom p segs rs

namespace Heap

/-- `addSegment` (segments.py:1086-1100) of a function with the list `L` and the piece object `r` -/
def addSegment (eps : K) (h : Heap K) (L r : ℕ) : Option (Heap K) :=
  match h.segs r with
  | .dirac a m =>
    match firstAtom (fun a' => |a - a'| ≤ eps) h.segs (h.lists L) with
    | some r' => some (h.grow r' m)
    | none => h.place L r
  | _ => h.place L r

/-- a loop of `addSegment`; it stops at the first failure (`false`), what was added before stays -/
def addUntil (eps : K) (h : Heap K) (L : ℕ) : List ℕ → Heap K × Bool
  | [] => (h, true)
  | r :: rs =>
    match h.addSegment eps L r with
    | none => (h, false)
    | some h' => h'.addUntil eps L rs

/-- `add_diracs` (segments.py:1560-1567); `rs` are the references in the list of the other function.  An atom that has no counterpart
at the same place is itself put into the list. -/
def addDiracs (eps : K) (h : Heap K) (L : ℕ) : List ℕ → Option (Heap K)
  | [] => some h
  | r :: rs =>
    match h.segs r with
    | .dirac a m =>
      match firstAtom (fun a' => a' = a) h.segs (h.lists L) with
      | none => (h.addSegment eps L r).bind fun h' => h'.addDiracs eps L rs
      | some r' => (h.grow r' m).addDiracs eps L rs
    | _ => h.addDiracs eps L rs

end Heap

/-- what a program can do with pieces and piecewise functions; pieces and functions are numbered in the order of their creation -/
inductive Cmd (K : Type*)
  /-- a piece is created: `s = Segment(a, b, f)`, `s = DiracSegment(a, m)`, … -/
  | piece (s : Seg K)
  /-- `PiecewiseFunction(segments)` with a list of pieces given by the caller (segments.py:998-1058) -/
  | fromList (ss : List ℕ)
  /-- `PiecewiseFunction()` (segments.py:998-1058) -/
  | blank
  /-- `f.addSegment(s)` (segments.py:1086-1100) -/
  | add (f s : ℕ)
  /-- `f.add_diracs(g)` (segments.py:1560-1567) for a function `g` that is not used afterwards, as in all calls in the library
  (indeparith.py:740, 829, 1445-1446, 1463-1464) -/
  | addDiracs (f g : ℕ)
  /-- `f.toInterpolated()` (segments.py:1127-1131); `I` makes the interpolated piece from a continuous piece -/
  | interpolated (I : Seg K → Seg K) (f : ℕ)
  /-- an operation that computes new pieces from those of its arguments and adds them to a new function, for instance
  `copyShiftedAndScaled` (segments.py:1378-1382), `_roperation__` (1628-1651) or `_function__` (1722-1744) -/
  | compute (F : List (PF K) → List (Seg K)) (fs : List ℕ)
  /-- `PDistr(segs).get_piecewise_pdf()` for a list `segs` (standard_distr.py:50-61, called on first use) -/
  | pdistr (ss : List ℕ)
  /-- the program does not use `f` any more -/
  | forget (f : ℕ)

/-- the state of the program: the heap, the addresses of the pieces created by the program, and for every function the address of
its list.  A function is `none` after an exception in its construction, and when it is not used any more. -/
structure State (K : Type*) where
  heap : Heap K
  names : List ℕ
  funs : List (Option ℕ)

/-- the state at the beginning -/
def State.start : State K := ⟨Heap.start, [], []⟩

/-- the list of the function `f`, if there is one -/
def State.list (st : State K) (f : ℕ) : Option ℕ := (st.funs[f]?).join

/-- the pieces of the function `f` -/
def State.pieces (st : State K) (f : ℕ) : Option (PF K) := (st.list f).map st.heap.content

/-- the new function consists of new objects for the pieces `ss` -/
def State.build (eps : K) (st : State K) (ss : List (Seg K)) : State K :=
  let h := (st.heap.allocAll ss).newList
  let r := h.addUntil eps (st.heap.allocAll ss).top (List.range' st.heap.next ss.length)
  ⟨r.1, st.names, st.funs ++ [if r.2 then some (st.heap.allocAll ss).top else none]⟩

/-- one action.  `PiecewiseFunction(segments)` with a nonempty list ends with an IndexError, because `self.breaks[i] = seg.a`
assigns to an empty list (segments.py:1058).  A failing `addSegment` leaves the function as it is, a failing
`add_diracs` may leave both functions half changed; the model then forgets them and keeps the heap.
`toInterpolatedSegment` of an atom is the atom itself (segments.py:710-711), the address reserved for its copy stays unused. -/
def step (eps : K) (st : State K) : Cmd K → State K
  | .piece s => ⟨st.heap.alloc s, st.names ++ [st.heap.next], st.funs⟩
  | .fromList ss =>
    if ss = [] then ⟨st.heap.newList, st.names, st.funs ++ [some st.heap.top]⟩
    else ⟨st.heap, st.names, st.funs ++ [none]⟩
  | .blank => ⟨st.heap, st.names, st.funs ++ [some 0]⟩
  | .add f s =>
    match st.list f, st.names[s]? with
    | some L, some r =>
      match st.heap.addSegment eps L r with
      | some h' => ⟨h', st.names, st.funs⟩
      | none => st
    | _, _ => st
  | .addDiracs f g =>
    match st.list f, st.list g with
    | some L, some L' =>
      match st.heap.addDiracs eps L (st.heap.lists L') with
      | some h' => ⟨h', st.names, st.funs.set g none⟩
      | none => ⟨st.heap, st.names, (st.funs.set f none).set g none⟩
    | _, _ => st
  | .interpolated I f =>
    match st.list f with
    | some L =>
      let refs := st.heap.lists L
      let h := st.heap.allocAll (refs.map fun r => I (st.heap.segs r))
      let copies := List.zipWith (fun r i => if (st.heap.segs r).isDirac then r else i) refs (List.range' st.heap.next refs.length)
      let r := h.newList.addUntil eps h.top copies
      ⟨r.1, st.names, st.funs ++ [if r.2 then some h.top else none]⟩
    | none => ⟨st.heap, st.names, st.funs ++ [none]⟩
  | .compute F fs => st.build eps (F (fs.filterMap st.pieces))
  | .pdistr ss =>
    let r := st.heap.addUntil eps 0 (ss.filterMap fun s => st.names[s]?)
    ⟨r.1, st.names, st.funs ++ [some 0]⟩
  | .forget f => ⟨st.heap, st.names, st.funs.set f none⟩

/-- a history of actions -/
def run (eps : K) (st : State K) (cs : List (Cmd K)) : State K := cs.foldl (step eps) st

end Alias
end Pacal
