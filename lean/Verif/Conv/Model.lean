import Verif.Law.Model
import Verif.Util.Breaks

/-!
Model of the sum of independent variables (`/repo/pacal/indeparith.py`): `conv`, `conv_at_point`, `_findSegListAdd`,
`convdiracs`, and the parts shared by all operations.

Simplifications (stated once): the quadrature on finite intervals is the parameter `q`; the replacement of a piece by its
interpolant (`toInterpolatedSegment`) is the identity, that is interpolation is taken as exact (C41 and C42 treat
interpolation); whether a pole is detected at the ends of a piece (`testPole` and the flags of the break points) is an
arbitrary parameter `pole`; parallel `map` is the sequential one.
-/

namespace Pacal
namespace Conv
open Transform

/-- numerical parameters: the quadrature, the parameters of `_segint`, `pole_detection.min_distance_from_pole`, the
tolerance of `_unique_breakpoints` (indeparith.py:41) and `segments.unique_eps` -/
structure Par where
  q : Quad
  qp : QPar
  poleEps : ℝ
  brkEps : ℝ
  eps : ℝ

/-- the ends of a piece as floats -/
def lo (s : Seg ℝ) : EReal := s.lo
/-- the ends of a piece as floats -/
def hi (s : Seg ℝ) : EReal := s.hi

/-- `safe_a` (segments.py:117-128, 789-800): one machine epsilon inside a pole on the left -/
noncomputable def safeA (p : QPar) : Seg ℝ → EReal
  | .fin .left a _ _ => if a = 0 then 0 else ((a + |a| * p.eps : ℝ) : EReal)
  | s => lo s

/-- `safe_b` (segments.py:117-128, 789-800) -/
noncomputable def safeB (p : QPar) : Seg ℝ → EReal
  | .fin .right _ b _ => if b = 0 then 0 else ((b - |b| * p.eps : ℝ) : EReal)
  | s => hi s

/-- `isinf` -/
def isInf (x : EReal) : Prop := x = ⊤ ∨ x = ⊥

/-- `_testConvPole` (indeparith.py:30-39) -/
noncomputable def testConvPole (poleEps : ℝ) (s : Seg ℝ) (L U : EReal) : Bool × Bool :=
  (s.hasLeftPole && decide (|(lo s).toReal - L.toReal| ≤ poleEps),
   s.hasRightPole && decide (|(hi s).toReal - U.toReal| ≤ poleEps))

/-- `fun_c1` (indeparith.py:176-177) -/
def funC1 (si sj : Seg ℝ) (x t : ℝ) : ℝ := si.fn t * sj.fn (x - t)
/-- `fun_c2` (indeparith.py:179-180) -/
def funC2 (si sj : Seg ℝ) (x t : ℝ) : ℝ := si.fn (x - t) * sj.fn t

/-- the first component of a pair (value, error), added to another one -/
def add2 (a b : Except PyErr (ℝ × ℝ)) : Except PyErr ℝ := a.bind fun a => b.bind fun b => .ok (a.1 + b.1)

/-- two continuous pieces: the branches of `conv_at_point` (indeparith.py:279-350).  The error estimates are not used and
left out. -/
noncomputable def contSum (P : Par) (x : ℝ) (si sj : Seg ℝ) : Except PyErr ℝ :=
  open Classical in
  let fun1 := funC1 si sj x
  let fun2 := funC2 si sj x
  let Lx := max (safeA P.qp si) (x - safeB P.qp sj)
  let Ux := min (safeB P.qp si) (x - safeA P.qp sj)
  let Ly := max (safeA P.qp sj) (x - safeB P.qp si)
  let Uy := min (safeB P.qp sj) (x - safeA P.qp si)
  let int := fun f L U pl pu => segint P.q P.qp f L U false false pl pu
  if ¬ isInf (lo si) ∧ ¬ isInf (lo sj) ∧ ¬ isInf (hi si) ∧ ¬ isInf (hi sj) then
    let pi := testConvPole P.poleEps si Lx Ux
    let pj := testConvPole P.poleEps sj Ly Uy
    if (pi.1 || pj.2) && (pi.2 || pj.1) then
      let Mx : ℝ := (Lx.toReal + Ux.toReal) / 2
      let My : ℝ := (Ly.toReal + Uy.toReal) / 2
      if x > 0 then add2 (int fun1 Lx Mx true false) (int fun2 Ly My true false)
      else add2 (int fun1 Mx Ux false true) (int fun2 My Uy false true)
    else if pi.1 || pi.2 then (int fun1 Lx Ux pi.1 pi.2).map Prod.fst
    else if pj.1 || pj.2 then (int fun2 Ly Uy pj.1 pj.2).map Prod.fst
    else (int fun1 Lx Ux false false).map Prod.fst
  else if (isInf (lo sj) ∨ isInf (hi sj)) ∧ ¬ isInf (lo si) ∧ ¬ isInf (hi si) then
    let pi := testConvPole P.poleEps si Lx Ux
    (int fun1 Lx Ux pi.1 pi.2).map Prod.fst
  else if (isInf (lo si) ∨ isInf (hi si)) ∧ ¬ isInf (lo sj) ∧ ¬ isInf (hi sj) then
    let pj := testConvPole P.poleEps sj Ly Uy
    (int fun2 Ly Uy pj.1 pj.2).map Prod.fst
  else if isInf (lo si) ∧ isInf (hi sj) then
    if |Ux.toReal| < |Ly.toReal| then .ok (fejerM P.q fun1 (some Ux.toReal) none P.qp.expInf).1
    else .ok (fejerP P.q fun2 (some Ly.toReal) none P.qp.expInf).1
  else if isInf (hi si) ∧ isInf (lo sj) then
    if |Lx.toReal| < |Uy.toReal| then .ok (fejerP P.q fun1 (some Lx.toReal) none P.qp.expInf).1
    else .ok (fejerM P.q fun2 (some Uy.toReal) none P.qp.expInf).1
  else if (isInf (lo si) ∧ isInf (lo sj)) ∨ (isInf (hi si) ∧ isInf (hi sj)) then
    let Mx : ℝ := (Lx.toReal + Ux.toReal) / 2
    let My : ℝ := (Ly.toReal + Uy.toReal) / 2
    if isInf (lo si) ∧ isInf (lo sj) then
      .ok ((guess P.q fun1 Mx Ux.toReal P.qp.expInf).1 + (guess P.q fun2 My Uy.toReal P.qp.expInf).1)
    else
      .ok ((guess P.q fun1 Lx.toReal Mx P.qp.expInf).1 + (guess P.q fun2 Ly.toReal My P.qp.expInf).1)
  else .error .assertion

/-- the contribution of one pair of pieces (indeparith.py:276-371) -/
noncomputable def pairSum (P : Par) (x : ℝ) (si sj : Seg ℝ) : Except PyErr ℝ :=
  if si.isDirac = false ∧ sj.isDirac = false then contSum P x si sj
  else if si.isDirac = true ∧ sj.isDirac = false then .ok (si.mass * sj.fn (x - (lo si).toReal))
  else if si.isDirac = false ∧ sj.isDirac = true then .ok (sj.mass * si.fn (x - (lo sj).toReal))
  else .ok 0

/-- the loop `for segi, segj in segList: … I += i` (indeparith.py:273-374, 381-414, 421-457) -/
def sumLoop (h : Seg ℝ → Seg ℝ → Except PyErr ℝ) : List (Seg ℝ × Seg ℝ) → ℝ → Except PyErr ℝ
  | [], I => .ok I
  | pr :: r, I => (h pr.1 pr.2).bind fun i => sumLoop h r (I + i)

/-- the function of a result piece.  An exception has no value; it is replaced by 0 here and shown not to occur. -/
def valueOf (r : Except PyErr ℝ) : ℝ := r.toOption.getD 0

/-- the pairs selected by a test, in the order of the nested loops -/
def pairsBy {K : Type*} (t : Seg K → Seg K → Bool) (f g : PF K) : List (Seg K × Seg K) :=
  f.flatMap fun si => (g.filter fun sj => t si sj).map fun sj => (si, sj)

/-- `_findSegListAdd` (indeparith.py:1300-1310, and segments.py:2077-2085) -/
noncomputable def findSegListAdd (f g : PF ℝ) (z : ℝ) : List (Seg ℝ × Seg ℝ) :=
  open Classical in
  pairsBy (fun si sj => decide ((z : EReal) - lo si > lo sj ∧ (z : EReal) - hi si < hi sj)) f g

/-- positions of the break points: `getBreaksExtended` (segments.py:1462-1477): the left end of the first piece and the
right ends of all pieces -/
def breaksExt (l : PF ℝ) : List (Ext ℝ) :=
  match l with
  | [] => []
  | s :: _ => s.lo :: l.map Seg.hi

/-- the finite ones among some break points -/
def finites (l : List (Ext ℝ)) : List ℝ :=
  l.filterMap fun x => match x with
    | some (some a) => some a
    | _ => none

/-- positions of the break points of the sum (indeparith.py:62-106): all sums of finite break points, and an infinite one
if one of the arguments has it.  The flags are left out; the code also notices an infinite break point of `g` only if `f`
has a finite one. -/
noncomputable def sumBreaks (f g : PF ℝ) : List (Ext ℝ) :=
  open Classical in
  let bf := breaksExt f
  let bg := breaksExt g
  let bs := (finites bf).flatMap fun a => (finites bg).map fun b => Ext.fin (a + b)
  let bs := if Ext.ninf ∈ bf ∨ (finites bf ≠ [] ∧ Ext.ninf ∈ bg) then Ext.ninf :: bs else bs
  if Ext.pinf ∈ bf ∨ (finites bf ≠ [] ∧ Ext.pinf ∈ bg) then bs ++ [Ext.pinf] else bs

/-- `_unique_breakpoints` (indeparith.py:41-55) on positions -/
noncomputable def uniqueX (brkEps : ℝ) (l : List (Ext ℝ)) : List (Ext ℝ) :=
  (Breaks.uniqueBreakpoints brkEps (l.map fun x => ⟨x, false, false, false, false⟩)).map Breaks.Brk.x

/-- the piece between two consecutive break points; `F z` is the function computed from the list of pairs found for `z`
(indeparith.py:110-127).  There is no piece with two infinite ends. -/
noncomputable def pieceOf (pole : ℝ → ℝ → Pole) (F : ℝ → ℝ → ℝ) (a b : Ext ℝ) : Option (Seg ℝ) :=
  match a, b with
  | none, some (some b) => some (.minf b (F (b - 1)))
  | some (some a), some none => some (.pinf a (F (a + 1)))
  | some (some a), some (some b) => some (.fin (pole a b) a b (F ((a + b) / 2)))
  | _, _ => none

/-- the pieces between consecutive break points -/
noncomputable def cuts (pole : ℝ → ℝ → Pole) (F : ℝ → ℝ → ℝ) : List (Ext ℝ) → List (Seg ℝ)
  | a :: b :: r => (pieceOf pole F a b).toList ++ cuts pole F (b :: r)
  | _ => []

/-- is a piece a left tail, a right tail -/
def isMInf : Seg ℝ → Bool
  | .minf _ _ => true
  | _ => false
/-- is a piece a left tail, a right tail -/
def isPInf : Seg ℝ → Bool
  | .pinf _ _ => true
  | _ => false

/-- the pieces in the order in which they are added: left tail, right tail, the others (indeparith.py:109-164, 713-735,
805-826) -/
noncomputable def pieces (pole : ℝ → ℝ → Pole) (F : ℝ → ℝ → ℝ) (brks : List (Ext ℝ)) : List (Seg ℝ) :=
  let ps := cuts pole F brks
  ps.filter isMInf ++ ps.filter isPInf ++ ps.filter fun s => !isMInf s && !isPInf s

/-- the dictionary update of `convdiracs` (indeparith.py:1406-1409) -/
def dictAdd {K : Type*} [Add K] [DecidableEq K] (k v : K) : List (K × K) → List (K × K)
  | [] => [(k, v)]
  | (k', v') :: r => if k' = k then (k', v' + v) :: r else (k', v') :: dictAdd k v r

/-- the dictionary of `convdiracs` (indeparith.py:1403-1409) -/
def diracTable {K : Type*} [Field K] [DecidableEq K] (op : K → K → K) (f g : PF K) : List (K × K) :=
  (pairsBy (fun si sj => si.isDirac && sj.isDirac) f g).foldl
    (fun d pr => match pr with
      | (.dirac a m, .dirac b n) => dictAdd (op a b) (m * n) d
      | _ => d) []

/-- `convdiracs` (indeparith.py:1399-1412) -/
def convdiracs {K : Type*} [Field K] [LinearOrder K] (eps : K) (op : K → K → K) (f g : PF K) : Option (PF K) :=
  PF.addAll eps [] ((diracTable op f g).map fun kv => .dirac kv.1 kv.2)

/-- the value of the density of the sum at `x`, computed with the pairs found for `z` -/
noncomputable def sumAt (P : Par) (f g : PF ℝ) (z x : ℝ) : ℝ :=
  valueOf (sumLoop (pairSum P x) (findSegListAdd f g z) 0)

/-- `conv` (indeparith.py:57-171) -/
noncomputable def conv (P : Par) (pole : ℝ → ℝ → Pole) (f g : PF ℝ) : Option (PF ℝ) :=
  (PF.addAll P.eps [] (pieces pole (sumAt P f g) (uniqueX P.brkEps (sumBreaks f g)))).bind fun fg =>
  (convdiracs P.eps (· + ·) f g).bind fun d => PF.addAll P.eps fg (PF.diracs d)

end Conv
end Pacal
