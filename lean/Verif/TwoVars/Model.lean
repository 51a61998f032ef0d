import Verif.Conv.Model

/-!
Model of `TwoVarsModel` (`/repo/pacal/depvars/models.py:451-713`): the distribution of a function `z = op(x, y)` of two
variables with a joint density.

Simplifications (stated once): sympy is a parameter (`Sym`): the expression of the function, the first solution of
`op(x, y) = z` for `y`, its derivative, and the results of substituting and solving at the ends of the pieces; numbers are
exact; the replacement of a piece by its interpolant is the identity; `_segint` of the joint distribution
(nddistr.py:414-455, copulas.py:156-193) is the same code as `_segint` of segments.py (`Transform.segint`) except that its
last branch (the whole line), never reached from here, calls another integrator.
-/

namespace Pacal
namespace TwoVars
open Transform Conv

/-- what the constructor gets from sympy (models.py:453-484), and the substitutions made later -/
structure Sym where
  /-- `lop`: the operation at two numbers, finite or not; `none` is nan -/
  lop : EReal → EReal → Option EReal
  /-- `lfun_alongx(x, z)`: the first solution `y` of `op(x, y) = z` -/
  along : ℝ → ℝ → ℝ
  /-- `lJx(x, z)`: its derivative with respect to `z` -/
  jac : ℝ → ℝ → ℝ
  /-- `eq_solve(fun_alongx, y, x)[0].subs(z)` (models.py:485-488, 496-502): `IndexError` without solutions, `none` if the
  result is not an extended real number -/
  cutX : EReal → ℝ → Except PyErr (Option EReal)
  /-- `fun_alongx.subs(x).subs(z)` (models.py:489-494, 503-509) -/
  cutY : EReal → ℝ → Option EReal

/-- `a < c and c < b`, where `c` may be `None` (`TypeError`) -/
noncomputable def inside (a b : EReal) : Option EReal → Except PyErr Bool
  | none => .error .typ
  | some c => open Classical in .ok (decide (a < c ∧ c < b))

/-- `max(c, a)`, where `c` may be `None` -/
noncomputable def maxN (c : Option EReal) (a : EReal) : Except PyErr EReal :=
  match c with
  | none => .error .typ
  | some c => .ok (max c a)

/-- `min(c, a)`, where `c` may be `None` -/
noncomputable def minN (c : Option EReal) (a : EReal) : Except PyErr EReal :=
  match c with
  | none => .error .typ
  | some c => .ok (min c a)

/-- `getUL` (models.py:495-526) -/
noncomputable def getUL (S : Sym) (ax bx ay by' : EReal) (z : ℝ) : Except PyErr (EReal × EReal) :=
  open Classical in do
  let axc ← S.cutX ay z
  let bxc ← S.cutX by' z
  let ayc := S.cutY ax z
  let byc := S.cutY bx z
  let L ← if (← inside ay by' ayc) then .ok ax else do .ok (min (← maxN axc ax) (← minN bxc bx))
  let U ← if (← inside ay by' byc) then .ok bx else do .ok (max (← maxN axc ax) (← minN bxc bx))
  let LU := if L < U then (L, U) else (U, L)
  .ok (max ax LU.1, min bx LU.2)

/-- the integrand of `convmodelx` (models.py:653) -/
def integrand (S : Sym) (p : ℝ → ℝ → ℝ) (z t : ℝ) : ℝ := p t (S.along t z) * |S.jac t z|

/-- the integral over one pair of continuous pieces (models.py:667-672) -/
noncomputable def pairInt (S : Sym) (P : Par) (p : ℝ → ℝ → ℝ) (z : ℝ) (si sj : Seg ℝ) : Except PyErr ℝ :=
  open Classical in do
  let LU ← getUL S (lo si) (hi si) (lo sj) (hi sj) z
  let L := min LU.2 LU.1
  let U := max LU.2 LU.1
  if L < U then (segint P.q P.qp (integrand S p z) L U false false false false).map Prod.fst else .ok 0

/-- the loop `for segi, segj in segList` (models.py:664-690): with an atom in the pair nothing is computed, and the
variable `i` still has the value of the pair before, or of the point before, or none (`UnboundLocalError`). The state is
the sum and the value of `i`. -/
noncomputable def pairLoop (S : Sym) (P : Par) (p : ℝ → ℝ → ℝ) (z : ℝ) :
    List (Seg ℝ × Seg ℝ) → ℝ → Option ℝ → Except PyErr (ℝ × Option ℝ)
  | [], I, i => .ok (I, i)
  | pr :: r, I, i =>
    if pr.1.isDirac = false ∧ pr.2.isDirac = false then
      (pairInt S P p z pr.1 pr.2).bind fun i => pairLoop S P p z r (I + i) (some i)
    else match i with
      | none => .error .unbound
      | some i => pairLoop S P p z r (I + i) (some i)

/-- `convmodelx` (models.py:632-692) at several points -/
noncomputable def convmodelx (S : Sym) (P : Par) (p : ℝ → ℝ → ℝ) (l : List (Seg ℝ × Seg ℝ)) :
    List ℝ → Option ℝ → Except PyErr (List ℝ)
  | [], _ => .ok []
  | z :: zs, i => (pairLoop S P p z l 0 i).bind fun Ii =>
      (convmodelx S P p l zs Ii.2).bind fun w => .ok (Ii.1 :: w)

/-- the four values of `_findSegList` that are not nan (models.py:707-710) -/
noncomputable def corners (S : Sym) (si sj : Seg ℝ) : List EReal :=
  [S.lop (lo si) (lo sj), S.lop (hi si) (hi sj), S.lop (lo si) (hi sj), S.lop (hi si) (lo sj)].filterMap id

/-- the condition of `_findSegList` (models.py:711); `min` and `max` of an empty array are a `ValueError` in the code, an
unselected pair here -/
noncomputable def selected (S : Sym) (z : ℝ) (si sj : Seg ℝ) : Prop :=
  (∃ r ∈ corners S si sj, r < z) ∧ ∃ r ∈ corners S si sj, (z : EReal) < r

open Classical in
/-- `_findSegList` (models.py:699-713) -/
noncomputable def findSegList (S : Sym) (f g : PF ℝ) (z : ℝ) : List (Seg ℝ × Seg ℝ) :=
  pairsBy (fun si sj => decide (selected S z si sj)) f g

/-- the break points of the result (models.py:592-602): the array is filled with zeros, which stay where the operation
gives nan -/
noncomputable def breaks (S : Sym) (f g : PF ℝ) : List (Ext ℝ) :=
  PF.npUnique ((PF.getBreaks f).flatMap fun x => (PF.getBreaks g).map fun y => (S.lop x y).getD 0)

/-- the value at `x` computed with the pairs found for `z` -/
noncomputable def modelAt (S : Sym) (P : Par) (p : ℝ → ℝ → ℝ) (f g : PF ℝ) (z x : ℝ) : ℝ :=
  valueOf ((pairLoop S P p x (findSegList S f g z) 0 none).map Prod.fst)

/-- `convmodel` (models.py:577-630): the pieces of the result, in the order in which they are added -/
noncomputable def convmodel (S : Sym) (P : Par) (pole : ℝ → ℝ → Pole) (p : ℝ → ℝ → ℝ) (f g : PF ℝ) : Option (PF ℝ) :=
  PF.addAll P.eps [] (pieces pole (modelAt S P p f g) (breaks S f g))

end TwoVars
end Pacal
