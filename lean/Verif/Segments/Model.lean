import Verif.Base.Bisect
import Mathlib.Order.WithBot
import Mathlib.Algebra.Order.Field.Basic

/-!
Model of `/repo/pacal/segments.py`: segment classes, their order, and the list-processing part of
`PiecewiseFunction`.

General simplifications (stated once): numbers are elements of a linearly ordered field `K` (no
rounding, no NaN); segment end points may be infinite; the function of a segment is a total function
`K → K`.  `safe_a`/`safe_b` (one machine epsilon inside a pole) are identified with `a`/`b`.
Python's `assert` and exceptions are the value `none`.
-/

namespace Pacal

/-- End points: `-np.inf`, a number, or `np.inf`. -/
abbrev Ext (K : Type*) := WithBot (WithTop K)

/-- A finite number as an end point. -/
def Ext.fin {K : Type*} (a : K) : Ext K := ((a : WithTop K) : WithBot (WithTop K))
/-- `-np.inf`. -/
def Ext.ninf {K : Type*} : Ext K := ⊥
/-- `np.inf`. -/
def Ext.pinf {K : Type*} : Ext K := ((⊤ : WithTop K) : WithBot (WithTop K))

/-- Kind of singularity of a finite segment: `Segment`/`InterpolatedSegment` have none,
`SegmentWithPole` (segments.py:786-890) has `left_pole = True` or `False`. -/
inductive Pole where
  | none | left | right
deriving DecidableEq, Repr

/-- Segment classes of segments.py: `Segment`/`InterpolatedSegment`/`SegmentWithPole` (113, 728, 786),
`ConstSegment` (480), `MInfSegment` (497), `PInfSegment` (582), `DiracSegment` (671, with `f` the mass). -/
inductive Seg (K : Type*) where
  | fin (pole : Pole) (a b : K) (f : K → K)
  | const (a b c : K)
  | minf (b : K) (f : K → K)
  | pinf (a : K) (f : K → K)
  | dirac (a m : K)

/-- A `PiecewiseFunction` is its list `self.segments` (segments.py:1054). -/
abbrev PF (K : Type*) := List (Seg K)

namespace Seg
variable {K : Type*}

/-- attribute `a` (segments.py:118, 500, 586, 676) -/
def lo : Seg K → Ext K
  | .fin _ a _ _ => .fin a
  | .const a _ _ => .fin a
  | .minf _ _ => .ninf
  | .pinf a _ => .fin a
  | .dirac a _ => .fin a

/-- attribute `b` (segments.py:119, 500, 586, 676) -/
def hi : Seg K → Ext K
  | .fin _ _ b _ => .fin b
  | .const _ b _ => .fin b
  | .minf b _ => .fin b
  | .pinf _ _ => .pinf
  | .dirac a _ => .fin a

/-- attribute `f` used as a function (segments.py:121, 485).  For a Dirac the attribute is the mass. -/
def fn : Seg K → K → K
  | .fin _ _ _ f => f
  | .const _ _ c => fun _ => c
  | .minf _ f => f
  | .pinf _ f => f
  | .dirac _ m => fun _ => m

/-- `isDirac` (segments.py:132, 717) -/
def isDirac : Seg K → Bool
  | .dirac _ _ => true
  | _ => false

/-- `hasLeftPole` (segments.py:134, 884) -/
def hasLeftPole : Seg K → Bool
  | .fin .left _ _ _ => true
  | _ => false

/-- `hasRightPole` (segments.py:136, 886) -/
def hasRightPole : Seg K → Bool
  | .fin .right _ _ _ => true
  | _ => false

/-- the mass of an atom, `0` for other segments -/
def mass [Zero K] : Seg K → K
  | .dirac _ m => m
  | _ => 0

variable [Field K] [LinearOrder K]

/-- `__lt__` (segments.py:447-451) -/
def lt (s t : Seg K) : Bool :=
  (decide (s.lo ≤ t.lo) && decide (s.hi < t.hi)) || (decide (s.lo < t.lo) && decide (s.hi ≤ t.hi))

/-- `__gt__` (segments.py:452-456) -/
def gt (s t : Seg K) : Bool :=
  (decide (t.lo ≤ s.lo) && decide (t.hi < s.hi)) || (decide (t.lo < s.lo) && decide (t.hi ≤ s.hi))

/-- `Segment.__call__` on a scalar (segments.py:151-156, 486-487, 679-681): `f` on the closed
segment, 0 outside; a Dirac gives 1 at its point. -/
def call : Seg K → K → K
  | .dirac a _, x => if x = a then 1 else 0
  | s, x => if s.lo ≤ .fin x ∧ .fin x ≤ s.hi then s.fn x else 0

end Seg

namespace PF
variable {K : Type*} [Field K] [LinearOrder K]

/-- `getDiracs` (segments.py:1500-1505) -/
def diracs (l : PF K) : PF K := l.filter Seg.isDirac

/-- `getSegments` (segments.py:1538-1543) -/
def segs (l : PF K) : PF K := l.filter (fun s => !s.isDirac)

/-- The loop `for seg in self.getDiracs(): if abs(segment.a - seg.a) <= unique_eps: seg.f += segment.f;
return` (segments.py:1088-1092); `none` when no atom is close.  Python mutates the stored object; the
model returns the list with that object replaced (aliasing of segment objects is not modelled). -/
def mergeDirac (eps a m : K) : PF K → Option (PF K)
  | [] => none
  | .dirac a' m' :: l =>
    if |a - a'| ≤ eps then some (.dirac a' (m' + m) :: l)
    else (mergeDirac eps a m l).map (.dirac a' m' :: ·)
  | s :: l => (mergeDirac eps a m l).map (s :: ·)

/-- `addSegment` after the merge loop (segments.py:1093-1100).  `t` is the segment found by
`bisect_left`; if it is not comparable with the new segment an atom is moved to `t.a` and anything else
fails the assert.  If `t.a` is `-inf` the code would store an atom at `-inf`, which the model cannot
represent; the model returns `none` there. The cached array `self.breaks` (line 1100) is not modelled; see
`getBreaks`. -/
def insertSeg (l : PF K) (s : Seg K) : Option (PF K) :=
  match l[bisectLeft Seg.lt l s]? with
  | none => some (insort Seg.lt l s)
  | some t =>
    if t.gt s || s.gt t then some (insort Seg.lt l s)
    else
      match s, t with
      | .dirac _ m, .fin _ a _ _ =>
        if t.gt (.dirac a m) || Seg.gt (.dirac a m) t then some (insort Seg.lt l (.dirac a m)) else none
      | .dirac _ m, .const a _ _ =>
        if t.gt (.dirac a m) || Seg.gt (.dirac a m) t then some (insort Seg.lt l (.dirac a m)) else none
      | .dirac _ m, .pinf a _ =>
        if t.gt (.dirac a m) || Seg.gt (.dirac a m) t then some (insort Seg.lt l (.dirac a m)) else none
      | .dirac _ m, .dirac a _ =>
        if t.gt (.dirac a m) || Seg.gt (.dirac a m) t then some (insort Seg.lt l (.dirac a m)) else none
      | _, _ => none

/-- `addSegment` (segments.py:1086-1100); `eps` is `params.segments.unique_eps`. -/
def addSegment (eps : K) (l : PF K) (s : Seg K) : Option (PF K) :=
  match s with
  | .dirac a m =>
    match mergeDirac eps a m l with
    | some l' => some l'
    | none => insertSeg l s
  | _ => insertSeg l s

/-- A history of `addSegment` calls. -/
def addAll (eps : K) : PF K → List (Seg K) → Option (PF K)
  | l, [] => some l
  | l, s :: ss => (addSegment eps l s).bind (fun l' => addAll eps l' ss)

/-- `numpy.unique`: sorted distinct elements. -/
def insUniq {α : Type*} [LinearOrder α] (x : α) : List α → List α
  | [] => [x]
  | y :: ys => if x < y then x :: y :: ys else if x = y then y :: ys else y :: insUniq x ys

/-- `numpy.unique`: sorted distinct elements. -/
def npUnique {α : Type*} [LinearOrder α] (l : List α) : List α := l.foldr insUniq []

/-- `getBreaks` (segments.py:1493-1498) -/
def getBreaks (l : PF K) : List (Ext K) :=
  if l.length = 0 then [] else npUnique (l.map Seg.lo ++ l.map Seg.hi)

/-- `getDirac(xi)` (segments.py:1533-1537): first atom exactly at `xi`. -/
def getDirac (x : K) : PF K → Option K
  | [] => none
  | .dirac a m :: l => if a = x then some m else getDirac x l
  | _ :: l => getDirac x l

/-- `findSegment(x)` (segments.py:1101-1118).  Outer `none`: IndexError on an empty function;
inner `none`: the Python value `None`. -/
def findSegment (l : PF K) (x : K) : Option (Option (Seg K)) :=
  let ind := bisectLeft Seg.lt l (.dirac x 0)
  if 0 < ind ∧ ind < l.length then (l[ind]?).map some
  else if ind = 0 then
    match l[0]? with
    | none => none
    | some s => some (if s.lo ≤ .fin x ∧ .fin x ≤ s.hi then some s else none)
  else
    match l[ind - 1]? with
    | none => none
    | some s => some (if s.hi = .fin x then some s else none)

/-- `__call__` on a scalar (segments.py:1063-1073) -/
def evalScalar (l : PF K) (x : K) : Option K :=
  match findSegment l x with
  | none => none
  | some none => some 0
  | some (some s) => some (if s.isDirac then s.call x else s.fn x)

/-- one element of the loop of `__call__` on an array (segments.py:1077-1080) -/
def evalVecLoop (x : K) : PF K → K → K
  | [], y => y
  | s :: l, y => evalVecLoop x l (if s.lo ≤ .fin x ∧ .fin x < s.hi then s.fn x else y)

/-- `__call__` on an array, at one of its elements (segments.py:1074-1084) -/
def evalVec (l : PF K) (x : K) : K :=
  let y := evalVecLoop x (segs l) 0
  match (segs l).getLast? with
  | none => y
  | some s => if .fin x = s.hi then s.fn x else y

/-- The pieces of a finite segment between successive split points (segments.py:1763-1794, branches
with `hasLeftPole`, `hasRightPole` and the final `else`). -/
def splitFin (pole : Pole) (a₀ b₀ : K) (f : K → K) : K → List K → List (Seg K)
  | a, [] =>
    [.fin (if pole = .left ∧ a = a₀ then .left else if pole = .right then .right else .none) a b₀ f]
  | a, p :: ps =>
    .fin (if pole = .left ∧ a = a₀ then .left
      else if pole = .right ∧ p = b₀ then .right else .none) a p f :: splitFin pole a₀ b₀ f p ps

/-- The pieces of a `PInfSegment` (same lines, branch `seg.isPInf() and isinf(b)`). -/
def splitPInf (f : K → K) : K → List K → List (Seg K)
  | a, [] => [.pinf a f]
  | a, p :: ps => .fin .none a p f :: splitPInf f p ps

/-- The pieces produced for one segment by `splitByPoints` (segments.py:1763-1794).  `points` holds the finite
split points (infinite ones never satisfy `seg.a < p < seg.b`). -/
def splitSeg (points : List K) : Seg K → List (Seg K)
  | .fin pole a b f => splitFin pole a b f a (points.filter (fun p => a < p ∧ p < b))
  | .const a b c => splitFin .none a b (fun _ => c) a (points.filter (fun p => a < p ∧ p < b))
  | .minf b f =>
    match points.filter (fun p => p < b) with
    | [] => [.minf b f]
    | p :: ps => .minf p f :: splitFin .none p b f p ps
  | .pinf a f => splitPInf f a (points.filter (fun p => a < p))
  | .dirac a m => [.dirac a m]

/-- `splitByPoints` (segments.py:1758-1795) -/
def splitByPoints (eps : K) (l : PF K) (points : List K) : Option (PF K) :=
  addAll eps [] (l.flatMap (splitSeg points))

/-- finite part of a list of end points (infinite split points are ignored by `splitByPoints`) -/
def finites (l : List (Ext K)) : List K :=
  l.filterMap (fun e => match e with
    | (some (some a) : Ext K) => some a
    | _ => none)

/-- `restrictToInterval` (segments.py:1745-1757) -/
def restrictToInterval (eps : K) (l : PF K) (a b : Ext K) : Option (PF K) :=
  (splitByPoints eps l (finites [a, b])).bind fun src =>
    addAll eps [] (src.filter fun s =>
      if s.isDirac then decide (a ≤ s.lo) && decide (s.hi < b)
      else decide (a ≤ s.lo) && decide (s.hi ≤ b))

/-- `findSegmentByEnds` (segments.py:1120-1125) -/
def findSegmentByEnds (l : PF K) (a b : Ext K) : Option (Seg K) :=
  l.find? (fun s => s.lo = a ∧ s.hi = b)

/-- `_makeCommonSegmentList` (segments.py:2149-2158) over the list of all breaks -/
def commonList (f g : PF K) : List (Ext K) → List (Option (Seg K) × Option (Seg K))
  | a :: b :: bs =>
    (findSegmentByEnds f a b, findSegmentByEnds g a b) :: commonList f g (b :: bs)
  | _ => []

/-- class of the result segment (segments.py:1695-1707): same class as `seg`, new function. A Dirac would fail
the assert. -/
def withFn (s : Seg K) (h : K → K) : Option (Seg K) :=
  match s with
  | .minf b _ => some (.minf b h)
  | .pinf a _ => some (.pinf a h)
  | .fin pole a b _ => some (.fin pole a b h)
  | .const a b _ => some (.fin .none a b h)
  | .dirac _ _ => none

/-- the loop body of `_operation__` (segments.py:1686-1707) with `make_segfun` inlined -/
def opPair (op : K → K → K) : Option (Seg K) × Option (Seg K) → Option (List (Seg K))
  | (none, none) => some []
  | (none, some g) => (withFn g (fun x => op 0 (g.fn x))).map ([·])
  | (some f, none) => (withFn f (fun x => op (f.fn x) 0)).map ([·])
  | (some f, some g) => (withFn f (fun x => op (f.fn x) (g.fn x))).map ([·])

/-- set the mass of the first atom at `x` (`self_dirac.f = ...`, segments.py:1667) -/
def setDirac (x m : K) : PF K → PF K
  | [] => []
  | .dirac a m' :: l => if a = x then .dirac a m :: l else .dirac a m' :: setDirac x m l
  | s :: l => s :: setDirac x m l

/-- positions of atoms -/
def diracPos : PF K → List K
  | [] => []
  | .dirac a _ :: l => a :: diracPos l
  | _ :: l => diracPos l

/-- the loop of `op_diracs` (segments.py:1661-1667) -/
def opDiracsLoop (eps : K) (op : K → K → K) (other : PF K) : List K → PF K → Option (PF K)
  | [], self => some self
  | x :: xs, self =>
    match getDirac x self, getDirac x other with
    | none, none => none  -- `other_dirac.a` on None: AttributeError (unreachable)
    | none, some mo => (addSegment eps self (.dirac x mo)).bind (opDiracsLoop eps op other xs)
    | some ms, some mo => opDiracsLoop eps op other xs (setDirac x (op ms mo) self)
    | some _, none => opDiracsLoop eps op other xs self

/-- `op_diracs` (segments.py:1653-1667) -/
def opDiracs (eps : K) (op : K → K → K) (self other : PF K) : Option (PF K) :=
  let ai := diracPos self
  let ai := (diracPos other).foldl (fun acc x => if x ∈ acc then acc else acc ++ [x]) ai
  opDiracsLoop eps op other ai self

/-- `_operation__` (segments.py:1669-1710) -/
def operation (eps : K) (op : K → K → K) (f g : PF K) : Option (PF K) := do
  let breaks := npUnique (getBreaks f ++ getBreaks g)
  let f' ← splitByPoints eps f (finites breaks)
  let g' ← splitByPoints eps g (finites breaks)
  let pairs := commonList f' g' (npUnique (getBreaks f' ++ getBreaks g'))
  let pieces ← pairs.mapM (opPair op)
  let fun₀ ← addAll eps [] pieces.flatten
  let fun₁ ← opDiracs eps op fun₀ f
  opDiracs eps op fun₁ g

/-- `_roperation__` (segments.py:1628-1651): `operation(seg.f, r)` on each piece. -/
def roperation (eps : K) (op : K → K → K) (l : PF K) (r : K) : Option (PF K) :=
  addAll eps [] (l.map fun s =>
    match s with
    | .minf b f => .minf b (fun x => op (f x) r)
    | .pinf a f => .pinf a (fun x => op (f x) r)
    | .fin pole a b f => .fin pole a b (fun x => op (f x) r)
    | .const a b c => .fin .none a b (fun _ => op c r)
    | .dirac a m => .dirac a (op m r))

/-- `f + r` for a number `r`: `__add__` (segments.py:1570-1575) calls `__radd__` (1602-1606). -/
def addReal (eps : K) (l : PF K) (r : K) : Option (PF K) := roperation eps (· + ·) l r

/-- `f * r`: `__mul__` (segments.py:1582-1587) calls `__rmul__` (1612-1616). -/
def mulReal (eps : K) (l : PF K) (r : K) : Option (PF K) := roperation eps (· * ·) l r

/-- `r - f`: `__rsub__` (segments.py:1607-1611) with `_op_rsub(x, y) = y - x` (55-56). -/
def rsubReal (eps : K) (l : PF K) (r : K) : Option (PF K) := roperation eps (fun x y => y - x) l r

/-- `f - r`: `__sub__` (segments.py:1576-1581) hands a number over to `__rsub__`. -/
def subReal (eps : K) (l : PF K) (r : K) : Option (PF K) := rsubReal eps l r

/-- `isNonneg` (segments.py:1153-1161) -/
def isNonneg (l : PF K) : Bool :=
  l.all fun s =>
    if s.isDirac then !decide (s.lo ≤ .fin 0) else !decide (s.lo < .fin 0)

end PF
end Pacal
