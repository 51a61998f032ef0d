import Verif.Segments.Model
import Verif.Law.Model
import Mathlib.Analysis.SpecialFunctions.Pow.Real

/-!
Model of functions of one random variable at the level of piecewise densities (`/repo/pacal/segments.py`):
`shiftAndScale`, `absComposition`, `squareComposition`, `probInverse`, `probComposition` of the segment classes and
the `copy…` methods of `PiecewiseFunction` that apply them to all pieces.

Values of a density at single points where the code meets a division by zero (`inf`, replaced by 0 or not, see
`_safe_call`) follow Lean's convention `x / 0 = 0`; a density may be changed at single points.
-/

namespace Pacal

/-! ### shift and scale -/

/-- `_shift_and_scale(f, 1/scale, shift, ·)` (segments.py:52-53) with `1/scale` as on lines 314-317 -/
noncomputable def shiftFn (f : ℝ → ℝ) (shift scale : ℝ) : ℝ → ℝ := fun x =>
  let inv := if scale = 1 then 1 else 1 / scale
  |inv| * f ((x - shift) * inv)

/-- `shiftAndScale`: `Segment` and `ConstSegment` (segments.py:311-324), `MInfSegment` (569-576), `PInfSegment`
(658-665), `DiracSegment` (712-714), `SegmentWithPole` (827-834) -/
noncomputable def Seg.shiftAndScale (shift scale : ℝ) : Seg ℝ → Seg ℝ
  | .fin .none a b f =>
    if scale > 0 then .fin .none (a * scale + shift) (b * scale + shift) (shiftFn f shift scale)
    else .fin .none (b * scale + shift) (a * scale + shift) (shiftFn f shift scale)
  | .const a b c =>
    if scale > 0 then .fin .none (a * scale + shift) (b * scale + shift) (shiftFn (fun _ => c) shift scale)
    else .fin .none (b * scale + shift) (a * scale + shift) (shiftFn (fun _ => c) shift scale)
  | .fin .left a b f =>
    if scale > 0 then .fin .left (a * scale + shift) (b * scale + shift) (shiftFn f shift scale)
    else .fin .right (b * scale + shift) (a * scale + shift) (shiftFn f shift scale)
  | .fin .right a b f =>
    if scale > 0 then .fin .right (a * scale + shift) (b * scale + shift) (shiftFn f shift scale)
    else .fin .left (b * scale + shift) (a * scale + shift) (shiftFn f shift scale)
  | .minf b f =>
    if scale > 0 then .minf (b * scale + shift) (shiftFn f shift scale)
    else .pinf (b * scale + shift) (shiftFn f shift scale)
  | .pinf a f =>
    if scale > 0 then .pinf (a * scale + shift) (shiftFn f shift scale)
    else .minf (a * scale + shift) (shiftFn f shift scale)
  | .dirac a m => .dirac (a * scale + shift) m

/-- `copyShiftedAndScaled` (segments.py:1378-1382), used by `ShiftedScaledDistr.init_piecewise_pdf`
(distr.py:601-602) -/
noncomputable def PF.copyShiftedAndScaled (eps : ℝ) (l : PF ℝ) (shift scale : ℝ) : Option (PF ℝ) :=
  addAll eps [] (l.map (Seg.shiftAndScale shift scale))

/-- `ShiftedScaledDistr(d, shift, scale)` (distr.py:593-602): `assert(scale != 0)` -/
noncomputable def shiftedScaled (eps : ℝ) (l : PF ℝ) (shift scale : ℝ) : Option (PF ℝ) :=
  if scale ≠ 0 then l.copyShiftedAndScaled eps shift scale else none

/-! ### absolute value and square -/

/-- the common shape of `absComposition` (segments.py:418-445) and `squareComposition` (391-416): `g` on the ends,
`fun` on pieces right of 0 and `fun2` on pieces left of 0 -/
noncomputable def Seg.foldComp (g : ℝ → ℝ) (right left : (ℝ → ℝ) → ℝ → ℝ) : Seg ℝ → Option (Seg ℝ)
  | .dirac a m => some (.dirac (g a) m)
  | .fin _ a b f => fin a b f
  | .const a b c => fin a b fun _ => c
  | .pinf a f => if a ≥ 0 then some (.pinf (g a) (right f)) else none
  | .minf b f => if b ≤ 0 then some (.pinf (g b) (left f)) else none
where
  /-- the finite case -/
  fin (a b : ℝ) (f : ℝ → ℝ) : Option (Seg ℝ) :=
    if (a ≥ 0 ∧ b > 0) ∨ (a < 0 ∧ b ≤ 0) then
      if a ≥ 0 then
        if a > 0 then some (.fin .none (g a) (g b) (right f))
        else some (.fin .left (g a) (g b) (right f))
      else
        if b < 0 then some (.fin .none (g b) (g a) (left f))
        else some (.fin .left (g b) (g a) (left f))
    else none

/-- `absComposition` (segments.py:418-445) with `_prob_composition`, `_prob_composition2` (88-91): `ginv = abs`,
`ginvderiv = 1` -/
noncomputable def Seg.absComposition : Seg ℝ → Option (Seg ℝ) :=
  Seg.foldComp (fun x => |x|) (fun f y => f |y| * |(1 : ℝ)|) (fun f y => f (-|y|) * |(1 : ℝ)|)

/-- `squareComposition` (segments.py:391-416): `ginv = x ** 0.5`, `ginvderiv = 0.5 / sqrt(x)` (61-64) -/
noncomputable def Seg.squareComposition : Seg ℝ → Option (Seg ℝ) :=
  Seg.foldComp (fun x => x * x) (fun f y => f (y ^ (0.5 : ℝ)) * |0.5 / √y|) (fun f y => f (-(y ^ (0.5 : ℝ))) * |0.5 / √y|)

/-- the loop of `copyAbsComposition` and `copySquareComposition` (segments.py:1431-1435, 1448-1452): the state is
`(leftFunction, rightFunction)` -/
noncomputable def PF.foldLoop (eps : ℝ) (T : Seg ℝ → Option (Seg ℝ)) : PF ℝ → PF ℝ × PF ℝ → Option (PF ℝ × PF ℝ)
  | [], st => some st
  | s :: l, (L, R) =>
    (T s).bind fun t =>
      if s.lo ≥ .fin 0 then (addSegment eps L t).bind fun L => foldLoop eps T l (L, R)
      else (addSegment eps R t).bind fun R => foldLoop eps T l (L, R)

/-- `copySquareComposition` (segments.py:1425-1442), used by `SquareDistr` (distr.py:925-926) -/
noncomputable def PF.copySquareComposition (eps : ℝ) (l : PF ℝ) : Option (PF ℝ) :=
  (splitByPoints eps l [0]).bind fun l' =>
  (foldLoop eps Seg.squareComposition l' ([], [])).bind fun st =>
    if st.2.length = 0 then some st.1
    else if st.1.length = 0 then some st.2
    else operation eps (fun x y => x + y) st.1 st.2

/-- `copyAbsComposition` (segments.py:1443-1456), used by `AbsDistr` (distr.py:900-901) -/
noncomputable def PF.copyAbsComposition (eps : ℝ) (l : PF ℝ) : Option (PF ℝ) :=
  (splitByPoints eps l [0]).bind fun l' =>
  (foldLoop eps Seg.absComposition l' ([], [])).bind fun st =>
  (splitByPoints eps st.1 (finites (getBreaks st.2))).bind fun L =>
    operation eps (fun x y => x + y) L st.2

/-! ### reciprocal -/

/-- `fun` of `probInverse` (segments.py:363 with 65-93): `f(1/y) * abs(1/y²)` -/
noncomputable def invFn (f : ℝ → ℝ) : ℝ → ℝ := fun y => f (1 / y) * |1 / y ^ 2|

/-- the finite case of `probInverse` (segments.py:364-389).  The reciprocals of finite non-zero ends are not 0, so
`pole_at_zero` has no effect here. -/
noncomputable def Seg.finInverse (a b : ℝ) (f : ℝ → ℝ) : Seg ℝ :=
  if a = 0 then (if 1 / b < 0 then .minf (1 / b) (invFn f) else .pinf (1 / b) (invFn f))
  else if b = 0 then (if 1 / a > 0 then .pinf (1 / a) (invFn f) else .minf (1 / a) (invFn f))
  else if 1 / a ≤ 1 / b then .fin .none (1 / a) (1 / b) (invFn f)
  else .fin .none (1 / b) (1 / a) (invFn f)

/-- `probInverse(pole_at_zero)` (segments.py:358-389).  For an atom the code does not call a special case: it builds a
segment of length 0 whose "function" is the mass, a number, so that every later evaluation raises `TypeError`; the
model reports the error at once (`none`). -/
noncomputable def Seg.probInverse (pole : Bool) : Seg ℝ → Option (Seg ℝ)
  | .fin _ a b f => some (finInverse a b f)
  | .const a b c => some (finInverse a b fun _ => c)
  | .minf b f =>
    if b = 0 then some (.minf 0 (invFn f))  -- `g(-inf) = -0.0`
    else if 0 ≤ 1 / b then some (.fin (if pole then .left else .none) 0 (1 / b) (invFn f))
    else some (.fin (if pole then .left else .none) (1 / b) 0 (invFn f))
  | .pinf a f =>
    if a = 0 then some (.pinf 0 (invFn f))
    else if 1 / a ≤ 0 then some (.fin .none (1 / a) 0 (invFn f))
    else some (.fin .none 0 (1 / a) (invFn f))
  | .dirac _ _ => none

/-- `List.map` with failure -/
def mapAll {α β : Type} (T : α → Option β) : List α → Option (List β)
  | [] => some []
  | a :: l => (T a).bind fun b => (mapAll T l).map fun r => b :: r

/-- the loops of `copyProbInverse` and `copyComposition` (segments.py:1385-1389, 1420-1423): apply `T` to each piece and
add the result.  The pieces are transformed first and added afterwards here; the first failure ends both. -/
noncomputable def PF.mapLoop (eps : ℝ) (T : Seg ℝ → Option (Seg ℝ)) (l : PF ℝ) : Option (PF ℝ) :=
  (mapAll T l).bind fun ts => addAll eps [] ts

/-- `copyProbInverse(pole_at_zero)` (segments.py:1417-1424), used by `InvDistr` with `False` (distr.py:837-838) -/
noncomputable def PF.copyProbInverse (eps : ℝ) (l : PF ℝ) (pole : Bool) : Option (PF ℝ) :=
  (splitByPoints eps l [0]).bind fun l' => mapLoop eps (Seg.probInverse pole) l'

/-! ### composition with an injective function -/

/-- `fun` of `probComposition` (segments.py:330 with 31-40) -/
noncomputable def compFn (f ginv dginv : ℝ → ℝ) : ℝ → ℝ := fun y => f (ginv y) * |dginv y|

/-- `isinf` on an end point -/
noncomputable def Ext.isInf : Ext ℝ → Bool
  | (some (some _) : Ext ℝ) => false
  | _ => true

/-- `MInfSegment(b, f)` where the end is given as a possibly infinite number; an infinite end is not representable -/
noncomputable def mkMinf (f : ℝ → ℝ) : Ext ℝ → Option (Seg ℝ)
  | (some (some b) : Ext ℝ) => some (.minf b f)
  | _ => none

/-- `PInfSegment(a, f)`, likewise -/
noncomputable def mkPinf (f : ℝ → ℝ) : Ext ℝ → Option (Seg ℝ)
  | (some (some a) : Ext ℝ) => some (.pinf a f)
  | _ => none

/-- `Segment(a, b, f)` / `SegmentWithPole(a, b, f)`, likewise -/
noncomputable def mkFin (pole : Pole) (f : ℝ → ℝ) : Ext ℝ → Ext ℝ → Option (Seg ℝ)
  | (some (some a) : Ext ℝ), (some (some b) : Ext ℝ) => some (.fin pole a b f)
  | _, _ => none

/-- `DiracSegment(a, m)`, likewise -/
noncomputable def mkDirac (m : ℝ) : Ext ℝ → Option (Seg ℝ)
  | (some (some a) : Ext ℝ) => some (.dirac a m)
  | _ => none

/-- `probComposition(g, ginv, ginvderiv, pole_at_zero)` (segments.py:325-356).  `g` is given on end points, finite or
infinite, as numpy evaluates it there (`exp(-inf) = 0`, `log(0) = -inf`, …); `mass` is `self.integrate()`. -/
noncomputable def Seg.probComposition (g : Ext ℝ → Ext ℝ) (ginv dginv : ℝ → ℝ) (pole : Bool) (mass : Seg ℝ → ℝ)
    (s : Seg ℝ) : Option (Seg ℝ) :=
  let fn := compFn s.fn ginv dginv
  if s.isDirac then mkDirac s.mass (g s.lo)
  else if (g s.lo).isInf then
    if g s.hi < .fin 0 then mkMinf fn (g s.hi) else mkPinf fn (g s.hi)
  else if (g s.hi).isInf then
    if g s.lo > .fin 0 then mkPinf fn (g s.lo) else mkMinf fn (g s.lo)
  else if g s.lo < g s.hi then
    if g s.lo = .fin 0 ∧ pole then mkFin .left fn (g s.lo) (g s.hi) else mkFin .none fn (g s.lo) (g s.hi)
  else if g s.lo = g s.hi then mkDirac (mass s) (g s.lo)
  else
    if g s.hi = .fin 0 ∧ pole then mkFin .right fn (g s.hi) (g s.lo) else mkFin .none fn (g s.hi) (g s.lo)

/-- `copyComposition(f, finv, finvDeriv, pole_at_zero)` (segments.py:1383-1390), used by `FuncDistr` (distr.py:590-591) -/
noncomputable def PF.copyComposition (eps : ℝ) (l : PF ℝ) (g : Ext ℝ → Ext ℝ) (ginv dginv : ℝ → ℝ) (pole : Bool)
    (mass : Seg ℝ → ℝ) : Option (PF ℝ) :=
  (splitByPoints eps l [0]).bind fun l' => mapLoop eps (Seg.probComposition g ginv dginv pole mass) l'

/-- `copyLogComposition` (segments.py:1457-1460), used by `LogDistr` (distr.py:643-644).  `pole_at_zero` is not passed on. -/
noncomputable def PF.copyLogComposition (eps : ℝ) (l : PF ℝ) (g : Ext ℝ → Ext ℝ) (ginv dginv : ℝ → ℝ)
    (mass : Seg ℝ → ℝ) : Option (PF ℝ) :=
  (splitByPoints eps l [0.5, 1, 2]).bind fun l' => l'.copyComposition eps g ginv dginv false mass

/-- one branch of a function that is not injective: an interval, the function, its inverse and the derivative of the
inverse on it (`intervals[i]`, `fs[i]`, `finvs[i]`, `finvDerivs[i]`) -/
structure Branch where
  lo : Ext ℝ
  hi : Ext ℝ
  f : Ext ℝ → Ext ℝ
  finv : ℝ → ℝ
  dfinv : ℝ → ℝ

/-- `copyCompositionNoninjective` (segments.py:1392-1411), used by `FuncNoninjectiveDistr` (distr.py:987-988).
`self.range()` on line 1397 is not used. -/
noncomputable def PF.copyCompositionNoninjective (eps : ℝ) (l : PF ℝ) (pole : Bool) (mass : Seg ℝ → ℝ) :
    List Branch → PF ℝ → Option (PF ℝ)
  | [], F => some F
  | B :: Bs, F =>
    (restrictToInterval eps l B.lo B.hi).bind fun summand =>
    (summand.copyComposition eps B.f B.finv B.dfinv pole mass).bind fun c =>
    (operation eps (fun x y => x + y) F c).bind fun F => copyCompositionNoninjective eps l pole mass Bs F

end Pacal
