import Verif.Law.Model
import Mathlib.Data.List.Sort

/-!
Model of discrete distributions and `sign(X)` (`/repo/pacal/distr.py`).
-/

namespace Pacal
open Transform

/-- order of the pairs `(x, p)` used by `px.sort()` (distr.py:1072): lexicographic -/
noncomputable def pairLe (a b : ℝ × ℝ) : Bool := decide (a.1 < b.1 ∨ a.1 = b.1 ∧ a.2 ≤ b.2)

/-- `px` of `DiscreteDistr(xi, pi)` (distr.py:1068-1075).  The two lists of equal length are given as a list of pairs. -/
noncomputable def tableSort (t : List (ℝ × ℝ)) : List (ℝ × ℝ) := t.mergeSort pairLe

/-- `DiscreteDistr.pdf(x)` (distr.py:1077-1083), at one element of the array -/
noncomputable def discretePdf (t : List (ℝ × ℝ)) (x : ℝ) : ℝ :=
  (tableSort t).foldl (fun yy p => if x = p.1 then yy + p.2 else yy) 0

/-- the zero pieces between consecutive points (distr.py:1088-1089) -/
def zeroPieces : List ℝ → List (Seg ℝ)
  | x :: y :: l => .const x y 0 :: zeroPieces (y :: l)
  | _ => []

/-- `DiscreteDistr.init_piecewise_pdf` (distr.py:1084-1089) -/
noncomputable def discretePF (eps : ℝ) (t : List (ℝ × ℝ)) : Option (PF ℝ) :=
  (PF.addAll eps [] ((tableSort t).map fun p => .dirac p.1 p.2)).bind fun F =>
    PF.addAll eps F (zeroPieces ((tableSort t).map Prod.fst))

/-- `cumsum` (distr.py:1076), starting from `c` -/
noncomputable def cumsumFrom (c : ℝ) : List ℝ → List ℝ
  | [] => []
  | p :: ps => (c + p) :: cumsumFrom (c + p) ps

/-- `searchsorted(a, u)` for a nondecreasing array: the number of entries below `u` -/
noncomputable def searchsorted (a : List ℝ) (u : ℝ) : ℕ := (a.takeWhile fun c => decide (c < u)).length

/-- `DiscreteDistr.rand_raw` (distr.py:1090-1094) for one uniform draw `u`; `none` is the `IndexError` -/
noncomputable def discreteRand (t : List (ℝ × ℝ)) (u : ℝ) : Option ℝ :=
  let xi := (tableSort t).map Prod.fst
  let i := searchsorted (cumsumFrom 0 ((tableSort t).map Prod.snd)) u
  let i := if i > xi.length then xi.length else i
  xi[i]?

/-- `ccdf_value(x)` (distr.py:140-150); `segments[-1]` of an empty list raises -/
noncomputable def PF.ccdfValue (eps : ℝ) (q : Quad) (p : QPar) (l : PF ℝ) (x : ℝ) : Option ℝ :=
  match l.getLast? with
  | none => none
  | some (.pinf a f) =>
    if x ≤ a then (PF.cdf eps q p l x).map fun c => 1 - c else some ((Seg.pinf a f).integrate q p x ⊤)
  | some _ => (PF.cdf eps q p l x).map fun c => 1 - c

/-- `ccdf(x)` on a scalar (distr.py:133-138): `1 - get_piecewise_cdf()` (99-105) evaluated at `x` -/
noncomputable def PF.ccdf (eps : ℝ) (q : Quad) (p : QPar) (l : PF ℝ) (x : ℝ) : Option ℝ :=
  (PF.cumint eps q p l).bind fun c => (PF.rsubReal eps c 1).bind fun r => PF.evalScalar r x

/-- the table of `SignDistr` (distr.py:1104-1114) -/
noncomputable def signTable (eps : ℝ) (q : Quad) (p : QPar) (l : PF ℝ) : Option (List (ℝ × ℝ)) :=
  (PF.ccdfValue eps q p l 0).bind fun prPlus =>
  let prZero := (PF.getDirac 0 l).getD 0
  (PF.cdf eps q p l 0).map fun c =>
  let prMinus := c - prZero
  if prZero > 0 then [(-1, prMinus), (0, prZero), (1, prPlus)] else [(-1, prMinus), (1, prPlus)]

/-- `SignDistr(d)` (distr.py:1101-1116, 1084-1089) -/
noncomputable def signDistr (eps : ℝ) (q : Quad) (p : QPar) (l : PF ℝ) : Option (PF ℝ) :=
  (signTable eps q p l).bind (discretePF eps)

/-- `ConstDistr(c, p)` (distr.py:1225-1228) -/
noncomputable def constDistr (eps : ℝ) (c : ℝ) (p : ℝ := 1) : Option (PF ℝ) := discretePF eps [(c, p)]

end Pacal
