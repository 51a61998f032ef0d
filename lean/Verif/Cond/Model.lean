import Verif.Conv.ProdModel
import Verif.Distr.Discrete

/-!
Model of conditioning on an inequality, `X | Gt(L)`, `X | Lt(U)`, `X | Between(L, U)` (`/repo/pacal/distr.py`).

`get_piecewise_pdf()` returns the cached list of pieces of `Z` (distr.py:80-84), so that the pieces removed with `pop` are
also missing in the product `Z * DiscreteDistr(...)` formed afterwards.  `none` stands for every exception.  The range
assertions of `__or__` (distr.py:523-535) and the names are not modelled.
-/

namespace Pacal
namespace Cond
open Transform Conv

/-- `diracB.f` as a number: a continuous piece has a function there, for which `1 - diracB.f` raises `TypeError`
(distr.py:1251, 1275, 1298) -/
def weight : Seg ℝ → Option ℝ
  | .dirac _ m => some m
  | _ => none

/-- `(Z * DiscreteDistr(xi=[1.0], pi=[1.0/p])).get_piecewise_pdf()` (distr.py:1251, 1275, 1299); `p = 0` raises
`ZeroDivisionError` -/
noncomputable def rescale (P : Par) (pole : ℝ → ℝ → Pole) (z : PF ℝ) (p : ℝ) : Option (PF ℝ) :=
  if p = 0 then none else (discretePF P.eps [(1, 1 / p)]).bind fun g => convprod P pole z g

/-- the loop `while segments[0].a < L: segments.pop(0)` followed by `segments.pop(0)` (distr.py:1247-1249): the piece removed
last and the pieces that remain -/
noncomputable def popBelow (L : ℝ) (z : PF ℝ) : Option (Seg ℝ × PF ℝ) :=
  (z.dropWhile fun s => decide (s.lo < .fin L)).head?.map fun s => (s, (z.dropWhile fun s => decide (s.lo < .fin L)).tail)

/-- `CondGtDistr.init_piecewise_pdf` (distr.py:1243-1251) -/
noncomputable def condGt (P : Par) (pole : ℝ → ℝ → Pole) (f : PF ℝ) (L : ℝ) : Option (PF ℝ) :=
  (constDistr P.eps L).bind fun c =>
  (convmax P c f).bind fun z =>
  (popBelow L z).bind fun p =>
  (weight p.1).bind fun m => rescale P pole p.2 (1 - m)

/-- `CondLtDistr.init_piecewise_pdf` (distr.py:1272-1275) -/
noncomputable def condLt (P : Par) (pole : ℝ → ℝ → Pole) (f : PF ℝ) (U : ℝ) : Option (PF ℝ) :=
  (constDistr P.eps U).bind fun c =>
  (convmin P c f).bind fun z =>
  z.getLast?.bind fun b =>
  (weight b).bind fun m => rescale P pole z.dropLast (1 - m)

/-- `CondBetweenDistr.init_piecewise_pdf` (distr.py:1291-1299); `min` and `max` are those of distr.py:1188-1223 -/
noncomputable def condBetween (P : Par) (pole : ℝ → ℝ → Pole) (f : PF ℝ) (L U : ℝ) : Option (PF ℝ) :=
  (constDistr P.eps U).bind fun u =>
  (convmin P f u).bind fun y =>
  (constDistr P.eps L).bind fun l =>
  (convmax P y l).bind fun z =>
  z.head?.bind fun b =>
  z.tail.getLast?.bind fun b' =>
  (weight b).bind fun m => (weight b').bind fun m' => rescale P pole z.tail.dropLast (1 - (m + m'))

end Cond
end Pacal
