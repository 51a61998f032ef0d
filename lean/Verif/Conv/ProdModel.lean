import Verif.Conv.MinMaxModel

/-!
Model of the product of independent variables (`/repo/pacal/indeparith.py`): `convprod`, `convprod_at_point`,
`_findSegList` with the operation `*`, `_probDiracAtZeroInProd`.  The simplifications of `Conv/Model.lean` apply.
-/

namespace Pacal
namespace Conv
open Transform

/-- `a * b` on floats; `none` is NaN (`0 * inf`) -/
noncomputable def fmul (a b : EReal) : Option EReal :=
  open Classical in
  if (a = 0 ∧ (b = ⊤ ∨ b = ⊥)) ∨ (b = 0 ∧ (a = ⊤ ∨ a = ⊥)) then none else some (a * b)

/-- the products of the ends of two pieces that are not NaN (indeparith.py:1320-1323) -/
noncomputable def corners (si sj : Seg ℝ) : List EReal :=
  [(lo si, lo sj), (hi si, hi sj), (lo si, hi sj), (hi si, lo sj)].filterMap fun p => fmul p.1 p.2

/-- `_findSegList` (indeparith.py:1312-1326) for products: `min(R) < z < max(R)`, that is some corner is below and some
corner is above `z`.  (The list is not empty: at least one end of a piece is finite.) -/
noncomputable def findSegListMul (f g : PF ℝ) (z : ℝ) : List (Seg ℝ × Seg ℝ) :=
  open Classical in
  pairsBy (fun si sj => decide ((∃ c ∈ corners si sj, c < z) ∧ ∃ c ∈ corners si sj, (z : EReal) < c)) f g

/-- `x / abs(e)` on floats for `x` not 0: infinite if `e` is 0, 0 if `e` is infinite -/
noncomputable def fdivAbs (x : ℝ) (e : EReal) : EReal :=
  open Classical in
  if e = 0 then if 0 < x then ⊤ else ⊥
  else if e = ⊤ ∨ e = ⊥ then 0
  else ((x / |e.toReal| : ℝ) : EReal)

/-- `sign` -/
noncomputable def sgn (e : EReal) : ℝ :=
  open Classical in
  if 0 < e then 1 else if e < 0 then -1 else 0

/-- `funi` of `convprod_at_point` (indeparith.py:465-468) -/
noncomputable def funI (si sj : Seg ℝ) (x t : ℝ) : ℝ := if t = 0 then 0 else si.fn t * sj.fn (x / t) * 1 / |t|
/-- `funj` of `convprod_at_point` (indeparith.py:470-473) -/
noncomputable def funJ (si sj : Seg ℝ) (x t : ℝ) : ℝ := if t = 0 then 0 else si.fn (x / t) * sj.fn t * 1 / |t|

/-- two continuous pieces (indeparith.py:478-499) -/
noncomputable def contProd (P : Par) (x : ℝ) (si sj : Seg ℝ) : Except PyErr ℝ :=
  open Classical in
  let int := fun f L U => (segint P.q P.qp f L U false false false false).map Prod.fst
  let s := sgn (lo si + hi si)
  let both := (int (funJ si sj x) (lo sj) (hi sj)).bind fun i1 =>
    (int (funI si sj x) (lo si) (hi si)).bind fun i => .ok (i + i1)
  if 0 < (lo si + hi si) * (lo sj + hi sj) then
    if 0 < x then int (funI si sj x) (max (lo si) (fdivAbs (s * x) (hi sj))) (min (hi si) (fdivAbs (s * x) (lo sj)))
    else both
  else
    if x < 0 then int (funI si sj x) (max (lo si) (fdivAbs (-s * x) (lo sj))) (min (hi si) (fdivAbs (-s * x) (hi sj)))
    else both

/-- an atom and a continuous piece (indeparith.py:500-509) -/
noncomputable def diracProd (x a m : ℝ) (s : Seg ℝ) : ℝ := m * s.fn (x / a) * 1 / |a| + if x = 0 then m else 0

/-- the contribution of one pair of pieces (indeparith.py:477-511).  For two atoms none of the branches is taken and `i` is
undefined; such a pair is not in the list. -/
noncomputable def pairProd (P : Par) (x : ℝ) (si sj : Seg ℝ) : Except PyErr ℝ :=
  if si.isDirac = false ∧ sj.isDirac = false then contProd P x si sj
  else if si.isDirac = true ∧ sj.isDirac = false then .ok (diracProd x (lo si).toReal si.mass sj)
  else if si.isDirac = false ∧ sj.isDirac = true then .ok (diracProd x (lo sj).toReal sj.mass si)
  else .error .assertion

/-- the value of the density of the product at `x`, computed with the pairs found for `z` (indeparith.py:459-512, 936-987) -/
noncomputable def prodAt (P : Par) (f g : PF ℝ) (z x : ℝ) : ℝ :=
  valueOf (sumLoop (pairProd P x) (findSegListMul f g z) 0)

/-- break points of the product (indeparith.py:914-918): the products that are not NaN -/
noncomputable def prodBreaks (P : Par) (f g : PF ℝ) : List (Ext ℝ) :=
  Breaks.epsunique P.eps ((PF.getBreaks f).flatMap fun a => (PF.getBreaks g).filterMap fun b => (fmul a b : Option EReal))

/-- one of the two loops of `_probDiracAtZeroInProd` (indeparith.py:1418-1421, 1422-1425) -/
noncomputable def zeroTimes (P : Par) (f g : PF ℝ) : ℝ :=
  (f.map fun s => match s with
    | .dirac a m => if a = 0 then ((g.filter fun t => !t.isDirac).map fun t => t.integrate P.q P.qp ⊥ ⊤ * m).sum else 0
    | _ => 0).sum

/-- `_probDiracAtZeroInProd` (indeparith.py:1414-1429) -/
noncomputable def zeroAtom (P : Par) (f g : PF ℝ) : Option ℝ :=
  open Classical in
  if 0 < zeroTimes P f g + zeroTimes P g f then some (zeroTimes P f g + zeroTimes P g f) else none

/-- the atom at 0 is added (indeparith.py:993-998) -/
noncomputable def addZero (P : Par) (fg : PF ℝ) (seg0 : Option (Seg ℝ)) (w : Option ℝ) : Option (PF ℝ) :=
  match w with
  | none => some fg
  | some w =>
    match seg0 with
    | some (.dirac a _) => if a = 0 then some (bumpDirac 0 w fg) else PF.addSegment P.eps fg (.dirac 0 w)
    | _ => PF.addSegment P.eps fg (.dirac 0 w)

/-- the points at which both arguments are split (indeparith.py:905-906) -/
def prodPoints : List ℝ := [-1, 0, 1]

/-- `convprod` (indeparith.py:901-999); `none` stands for every exception.  `findSegment` raises IndexError if the function
has no pieces. -/
noncomputable def convprod (P : Par) (pole : ℝ → ℝ → Pole) (f g : PF ℝ) : Option (PF ℝ) :=
  (PF.splitByPoints P.eps f prodPoints).bind fun f =>
  (PF.splitByPoints P.eps g prodPoints).bind fun g =>
  if prodBreaks P f g = [] then none else
  (PF.addAll P.eps [] (pieces pole (prodAt P f g) (prodBreaks P f g))).bind fun fg =>
  (convdiracs P.eps (· * ·) f g).bind fun d =>
  (PF.addAll P.eps fg (PF.diracs d)).bind fun fg =>
  (PF.findSegment fg 0).bind fun seg0 => addZero P fg seg0 (zeroAtom P f g)

end Conv
end Pacal
