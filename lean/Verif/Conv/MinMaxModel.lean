import Verif.Conv.Model

/-!
Model of the minimum and maximum of independent variables (`/repo/pacal/indeparith.py`): `convmin`, `convmax`,
`convminx_at_point`, `convmax_at_point`, `_findSegList`, `_probDiracsInMin`, `_probDiracsInMax`, and of `add_diracs`
(`segments.py`).  The simplifications of `Conv/Model.lean` apply.
-/

namespace Pacal
namespace Conv
open Transform

/-- `self_dirac.f += v` for the first atom exactly at `x` (segments.py:1563-1567) -/
def bumpDirac {K : Type*} [Field K] [DecidableEq K] (x v : K) : PF K → PF K
  | [] => []
  | .dirac a m :: l => if a = x then .dirac a (m + v) :: l else .dirac a m :: bumpDirac x v l
  | s :: l => s :: bumpDirac x v l

/-- `add_diracs` (segments.py:1560-1567); `ds` are the pieces of the other function -/
def addDiracs {K : Type*} [Field K] [LinearOrder K] (eps : K) : PF K → PF K → Option (PF K)
  | l, [] => some l
  | l, .dirac a m :: ds =>
    if (PF.getDirac a l).isNone then (PF.addSegment eps l (.dirac a m)).bind fun l' => addDiracs eps l' ds
    else addDiracs eps (bumpDirac a m l) ds
  | l, _ :: ds => addDiracs eps l ds

/-- `_probDiracsInMin` (indeparith.py:1431-1448) and `_probDiracsInMax` (1449-1466); `tail h a` is `h.integrate(a = a)` for
the minimum and `h.integrate(b = a)` for the maximum -/
noncomputable def probDiracs (eps : ℝ) (tail : PF ℝ → ℝ → ℝ) (f g : PF ℝ) : Option (PF ℝ) :=
  (PF.addAll eps [] (f.filterMap fun s => match s with
    | .dirac a m => some (.dirac a (m * tail g a))
    | _ => none)).bind fun fd =>
  (PF.addAll eps [] (g.filterMap fun s => match s with
    | .dirac a m => some (.dirac a (m * tail f a))
    | _ => none)).bind fun gd =>
  (PF.addAll eps [] (g.filterMap fun s => match s with
    | .dirac a m => (PF.getDirac a f).map fun m' => .dirac a (m * m')
    | _ => none)).bind fun hd =>
  (addDiracs eps fd gd).bind fun r => addDiracs eps r hd

/-- the contribution of one of the two ifs of the loops (indeparith.py:382-397, 398-413, 424-439, 440-455): `sj` is the
piece that has to contain `x`, `int` the integral of the other piece times `segj.f(x)`.  If both pieces are atoms the
condition `segj.a != segj.b` fails, so the branch `pass` is not reached. -/
noncomputable def halfPair (int : Except PyErr ℝ) (x : ℝ) (si sj : Seg ℝ) : Except PyErr ℝ :=
  open Classical in
  if (lo sj ≤ x ∧ x ≤ hi sj) ∧ lo sj ≠ hi sj then
    if si.isDirac = false ∧ sj.isDirac = false then int
    else if si.isDirac = true ∧ sj.isDirac = false then .ok (si.mass * sj.fn x)
    else if si.isDirac = false ∧ sj.isDirac = true then .ok (sj.mass * si.fn x)
    else .ok 0
  else .ok 0

/-- the body of the loop of `convminx_at_point` (indeparith.py:376-414), with `funi_minx`, `funj_minx` (189-194) -/
noncomputable def pairMin (P : Par) (x : ℝ) (si sj : Seg ℝ) : Except PyErr ℝ :=
  (halfPair ((segint P.q P.qp (fun t => si.fn t * sj.fn x) (max (lo si) x) (hi si) false false false false).map Prod.fst) x si sj).bind fun i =>
  (halfPair ((segint P.q P.qp (fun t => si.fn x * sj.fn t) (max (lo sj) x) (hi sj) false false false false).map Prod.fst) x sj si).bind fun j =>
  .ok (i + j)

/-- the body of the loop of `convmax_at_point` (indeparith.py:415-457), with `funi_maxx`, `funj_maxx` (182-187) -/
noncomputable def pairMax (P : Par) (x : ℝ) (si sj : Seg ℝ) : Except PyErr ℝ :=
  (halfPair ((segint P.q P.qp (fun t => si.fn t * sj.fn x) (lo si) (min (hi si) x) false false false false).map Prod.fst) x si sj).bind fun i =>
  (halfPair ((segint P.q P.qp (fun t => si.fn x * sj.fn t) (lo sj) (min (hi sj) x) false false false false).map Prod.fst) x sj si).bind fun j =>
  .ok (i + j)

/-- `_findSegList` (indeparith.py:1312-1326): the smallest and the largest value of the operation on the four corners;
neither `minimum` nor `maximum` of ends is a NaN -/
noncomputable def findSegList (op : EReal → EReal → EReal) (f g : PF ℝ) (z : ℝ) : List (Seg ℝ × Seg ℝ) :=
  open Classical in
  pairsBy (fun si sj => decide (
    min (min (op (lo si) (lo sj)) (op (hi si) (hi sj))) (min (op (lo si) (hi sj)) (op (hi si) (lo sj))) < z ∧
    z < max (max (op (lo si) (lo sj)) (op (hi si) (hi sj))) (max (op (lo si) (hi sj)) (op (hi si) (lo sj))))) f g

/-- the common part of `convmin` (indeparith.py:702-741) and `convmax` (793-830); the unused value of `convdiracs` (737) is
left out.  `none` also stands for the exception raised for an empty list of break points. -/
noncomputable def convMM (P : Par) (opE : Ext ℝ → Ext ℝ → Ext ℝ) (op : EReal → EReal → EReal)
    (pair : ℝ → Seg ℝ → Seg ℝ → Except PyErr ℝ) (tail : PF ℝ → ℝ → ℝ) (f g : PF ℝ) : Option (PF ℝ) :=
  let bf := PF.getBreaks f
  let bg := PF.getBreaks g
  (PF.splitByPoints P.eps f (PF.finites bg)).bind fun f =>
  (PF.splitByPoints P.eps g (PF.finites bf)).bind fun g =>
  let ub := PF.npUnique (bf.flatMap fun a => bg.map fun b => opE a b)
  if ub = [] then none else
  (PF.addAll P.eps [] (pieces (fun _ _ => .none)
    (fun z x => valueOf (sumLoop (pair x) (findSegList op f g z) 0)) ub)).bind fun fg =>
  (probDiracs P.eps tail f g).bind fun d => addDiracs P.eps fg d

/-- `convmin` (indeparith.py:702-741) -/
noncomputable def convmin (P : Par) (f g : PF ℝ) : Option (PF ℝ) :=
  convMM P min min (pairMin P) (fun h a => h.integrate P.q P.qp a ⊤) f g

/-- `convmax` (indeparith.py:793-830) -/
noncomputable def convmax (P : Par) (f g : PF ℝ) : Option (PF ℝ) :=
  convMM P max max (pairMax P) (fun h a => h.integrate P.q P.qp ⊥ a) f g

end Conv
end Pacal
