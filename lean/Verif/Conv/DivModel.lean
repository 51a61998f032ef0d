import Verif.Conv.ProdModel

/-!
Model of the quotient of independent variables (`/repo/pacal/indeparith.py`): `convdiv`, `convdiv_at_point`,
`convdiv2_at_point`, `fun_div`, `_findSegListDiv`, `_split_for_prod_and_div`, `_distr_signs`, `_distr_zero_signs`.  The
simplifications of `Conv/Model.lean` apply.
-/

namespace Pacal
namespace Conv
open Transform

/-- `bisect.insort_left` on floats -/
noncomputable def insLeft (l : List EReal) (x : EReal) : List EReal :=
  open Classical in
  let i := bisectLeft (fun a b => decide (a < b)) l x
  l.take i ++ x :: l.drop i

/-- the list of split points of `_split_for_prod_and_div` (indeparith.py:884-898): 0 is inserted if missing; if 0 is the
last but one entry, a point after it (`-1.0` if the last entry is infinite); if 0 is at index 1, a point before it.  The
index of 0 is not updated after the first insertion. -/
noncomputable def divPoints (bs : List EReal) : List EReal :=
  open Classical in
  let l := if 0 ∈ bs then bs else insLeft bs 0
  let ind := l.idxOf 0
  let l' := if ind + 2 = l.length then
      insLeft l (if isInf (l.getD (ind + 1) 0) then -1 else l.getD (ind + 1) 0 / 2) else l
  if ind = 1 then insLeft l' (if isInf (l'.getD (ind - 1) 0) then -1 else l'.getD (ind - 1) 0 / 2) else l'

/-- `_split_for_prod_and_div` (indeparith.py:880-899); `none` if there are no pieces (IndexError) -/
noncomputable def splitForDiv (eps : ℝ) (f : PF ℝ) : Option (PF ℝ) :=
  open Classical in
  if PF.getBreaks f = [] then none
  else if 0 < ((PF.getBreaks f).headD (.fin 0) : EReal) ∨ ((PF.getBreaks f).getLastD (.fin 0) : EReal) < 0 then some f
  else PF.splitByPoints eps f (PF.finites (PF.npUnique (divPoints (PF.getBreaks f) : List (Ext ℝ))))

/-- `a / b` on floats; `none` is NaN.  Division by 0 gives an infinite value whose sign depends on the sign of the zero:
`neg0` says that the zero is `-0.0`. -/
noncomputable def fdiv (neg0 : Bool) (a b : EReal) : Option EReal :=
  open Classical in
  if (a = 0 ∧ b = 0) ∨ (isInf a ∧ isInf b) then none
  else if b = 0 then some (if 0 < a ↔ neg0 = false then ⊤ else ⊥)
  else some (a / b)

/-- `_distr_signs` (indeparith.py:1060-1067) -/
noncomputable def signs (f : PF ℝ) : Bool × Bool :=
  open Classical in
  (f.any fun s => decide (0 < hi s), f.any fun s => decide (lo s < 0))

/-- `_distr_zero_signs` (indeparith.py:1068-1078) -/
noncomputable def zeroSigns (g : PF ℝ) : Bool × Bool × Bool :=
  open Classical in
  let z := g.filter fun s => decide (lo s ≤ 0 ∧ 0 ≤ hi s)
  (!z.isEmpty, z.any fun s => decide (0 < hi s), z.any fun s => decide (lo s < 0))

/-- Python's `min` and `max` with NaN (`none`): a value replaces the current one only if the comparison is true -/
noncomputable def pyBest (better : EReal → EReal → Prop) (l : List (Option EReal)) : Option EReal :=
  open Classical in
  match l with
  | [] => none
  | x :: xs => xs.foldl (fun cur y => match cur, y with
      | some c, some v => if better v c then some v else some c
      | c, _ => c) x

/-- the quotients of the break points, with the infinite ends added (indeparith.py:1108-1118) -/
noncomputable def divTable (neg0 : Bool) (f g : PF ℝ) : List (Option EReal) :=
  let b := (PF.getBreaks f).flatMap fun a => (PF.getBreaks g).map fun c => fdiv neg0 a c
  let (fPos, fNeg) := signs f
  let (z, zPos, zNeg) := zeroSigns g
  let b := if z && ((fPos && zNeg) || (fNeg && zPos)) then b ++ [some ⊥] else b
  if z && ((fPos && zPos) || (fNeg && zNeg)) then b ++ [some ⊤] else b

/-- the table with 0 added if there are values of both signs (indeparith.py:1119-1120) -/
noncomputable def divTable0 (neg0 : Bool) (f g : PF ℝ) : List (Option EReal) :=
  open Classical in
  let b := divTable neg0 f g
  if ∃ v, (pyBest (· < ·) b).bind (fun lo => (pyBest (· > ·) b).bind fun hi => fmul lo hi) = some v ∧ v < 0
  then b ++ [some 0] else b

/-- insertion of -1, 0 and 1 (indeparith.py:1123-1139); the order of the insertions does not matter because the list is
sorted afterwards -/
noncomputable def divInsert (ub : List EReal) : List EReal :=
  open Classical in
  let ind := ub.idxOf 0
  let l := if 0 ∈ ub ∧ ind + 1 < ub.length ∧ isInf (ub.getD (ind + 1) 0) then insLeft ub 1 else ub
  let l := if 0 ∈ ub ∧ 0 < ind ∧ isInf (ub.getD (ind - 1) 0) then insLeft l (-1) else l
  if 0 ∉ ub ∧ ∃ v, fmul (ub.headD 0) (ub.getLastD 0) = some v ∧ v < 0 then insLeft l 0 else l

/-- break points of the quotient (indeparith.py:1105-1139) -/
noncomputable def divBreaks (P : Par) (neg0 : Bool) (f g : PF ℝ) : List (Ext ℝ) :=
  PF.npUnique (divInsert (Breaks.epsunique P.eps ((divTable0 neg0 f g).filterMap id : List (Ext ℝ))) : List (Ext ℝ))

/-- a comparison on floats: false if one is NaN -/
def fltLt (a b : Option EReal) : Prop := ∃ x y, a = some x ∧ b = some y ∧ x < y

/-- the test of `_findSegListDiv` (indeparith.py:1360-1363) -/
def TestDiv (z : ℝ) (si sj : Seg ℝ) : Prop :=
  let yl := fmul z (lo sj)
  let yr := fmul z (hi sj)
  (fltLt (some (lo si)) yl ∧ fltLt yr (some (hi si))) ∨ (fltLt yl (some (hi si)) ∧ fltLt (some (lo si)) yr)

/-- `_findSegListDiv` (indeparith.py:1350-1365) -/
noncomputable def findSegListDiv (f g : PF ℝ) (z : ℝ) : List (Seg ℝ × Seg ℝ) :=
  open Classical in
  pairsBy (fun si sj => decide (TestDiv z si sj)) f g

/-- the flags `force_minf`, `force_pinf` (indeparith.py:555-560, 605-610) -/
noncomputable def forceM (si sj : Seg ℝ) (L : EReal) : Bool :=
  open Classical in decide (¬ isInf L ∧ L < 0 ∧ (isInf (lo si) ∨ isInf (lo sj)))
/-- the flags `force_minf`, `force_pinf` (indeparith.py:555-560, 605-610) -/
noncomputable def forceP (si sj : Seg ℝ) (U : EReal) : Bool :=
  open Classical in decide (¬ isInf U ∧ 0 < U ∧ (isInf (hi si) ∨ isInf (hi sj)))

/-- the integrand of `convdiv_at_point` (indeparith.py:537-539) -/
noncomputable def funD1 (si sj : Seg ℝ) (x t : ℝ) : ℝ := si.fn (x * t) * sj.fn t * |t|

/-- the integrand of `convdiv2_at_point` (indeparith.py:582-587) -/
noncomputable def funD2 (si sj : Seg ℝ) (x t : ℝ) : ℝ :=
  if x = 0 then si.fn 0 * sj.fn t * |t| else si.fn t * sj.fn (t / x) * |t| / x / x

/-- two continuous pieces, integral along the denominator (indeparith.py:543-561) -/
noncomputable def contDiv1 (P : Par) (x : ℝ) (si sj : Seg ℝ) : Except PyErr ℝ :=
  let L := if x = 0 then lo sj else max (lo sj) (min (lo si / x) (hi si / x))
  let U := if x = 0 then hi sj else min (hi sj) (max (lo si / x) (hi si / x))
  (segint P.q P.qp (funD1 si sj x) L U (forceM si sj L) (forceP si sj U) false false).map Prod.fst

/-- two continuous pieces, integral along the numerator (indeparith.py:591-611) -/
noncomputable def contDiv2 (P : Par) (x : ℝ) (si sj : Seg ℝ) : Except PyErr ℝ :=
  let L := if x = 0 then lo sj else max (lo si) (min (lo sj * x) (hi sj * x))
  let U := if x = 0 then hi sj else min (hi si) (max (lo sj * x) (hi sj * x))
  (segint P.q P.qp (funD2 si sj x) L U (forceM si sj L) (forceP si sj U) false false).map Prod.fst

/-- the contribution of one pair of pieces (indeparith.py:542-572, 590-620).  `second` selects `convdiv2_at_point`, which
differs from `convdiv_at_point` for two continuous pieces only.  A continuous piece divided by an atom at `b` contributes
`m * f(b) * |b|`, which does not depend on `x`.  For two atoms none of the branches is taken.  (An atom divided by a
continuous piece at `x = 0` is a division by zero; it is never evaluated there in an interval between break points.) -/
noncomputable def pairDiv (P : Par) (second : Bool) (x : ℝ) (si sj : Seg ℝ) : Except PyErr ℝ :=
  if si.isDirac = false ∧ sj.isDirac = false then if second then contDiv2 P x si sj else contDiv1 P x si sj
  else if si.isDirac = true ∧ sj.isDirac = false then
    if (lo si).toReal = 0 then .error .assertion
    else .ok (si.mass * sj.fn ((lo si).toReal / x) * |(lo si).toReal| / x / x)
  else if si.isDirac = false ∧ sj.isDirac = true then
    if (lo sj).toReal = 0 then .error .assertion else .ok (sj.mass * si.fn (lo sj).toReal * |(lo sj).toReal|)
  else .error .assertion

/-- `fun_div` (indeparith.py:514-530): for an array of points `convdiv2_at_point` is used where `|x| ≥ 1`, for a single
point never -/
noncomputable def funDiv (P : Par) (arr : Bool) (x : ℝ) (si sj : Seg ℝ) : Except PyErr ℝ :=
  pairDiv P (arr && !decide (|x| < 1)) x si sj

/-- the value of the density of the quotient at `x`, computed with the pairs found for `z` -/
noncomputable def divAt (P : Par) (arr : Bool) (f g : PF ℝ) (z x : ℝ) : ℝ :=
  valueOf (sumLoop (funDiv P arr x) (findSegListDiv f g z) 0)

/-- `convdiracs(f, g, fun = operator.truediv)` (indeparith.py:1188-1191).  Division by an atom at 0 raises
`ZeroDivisionError`. -/
noncomputable def convdiracsDiv (eps : ℝ) (f g : PF ℝ) : Option (PF ℝ) :=
  open Classical in
  if (pairsBy (fun si sj => si.isDirac && sj.isDirac) f g).any fun pr => decide (lo pr.2 = 0) then none
  else convdiracs eps (· / ·) f g

/-- `convdiv` (indeparith.py:1094-1194); `none` stands for every exception.  `neg0`: the zero among the break points of the
denominator, if any, is `-0.0`; `arr`: the density is evaluated at arrays of points. -/
noncomputable def convdiv (P : Par) (neg0 arr : Bool) (pole : ℝ → ℝ → Pole) (f g : PF ℝ) : Option (PF ℝ) :=
  (splitForDiv P.eps f).bind fun f =>
  (splitForDiv P.eps g).bind fun g =>
  if divBreaks P neg0 f g = [] then none else
  (PF.addAll P.eps [] (pieces pole (divAt P arr f g) (divBreaks P neg0 f g))).bind fun fg =>
  (convdiracsDiv P.eps f g).bind fun d => PF.addAll P.eps fg (PF.diracs d)

end Conv
end Pacal
