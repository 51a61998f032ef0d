import Verif.Segments.Model
import Verif.Transform.Front

/-!
Model of integration of piecewise functions (`/repo/pacal/segments.py`): `integrate` of every segment class,
`segIntegral`, `cumint`, and `PiecewiseFunction.integrate`, `cumint`.

The quadrature on finite intervals is the parameter `q`; `p` holds the numerical parameters.  In the code `None`
as lower (upper) limit behaves as `-inf` (`+inf`); both are the value `none` here.
-/

namespace Pacal
open Transform

/-- `if a == None or a < self.a: a = self.a` (segments.py:165-166, 490-491, 805-806) -/
noncomputable def clipLo (sa : ℝ) : WithBot ℝ → ℝ
  | none => sa
  | some a => if a < sa then sa else a

/-- `if b == None or b > self.b: b = self.b` (segments.py:167-168, 492-493, 552-553, 807-808) -/
noncomputable def clipHi (sb : ℝ) : WithTop ℝ → ℝ
  | none => sb
  | some b => if b > sb then sb else b

namespace Seg

/-- `integrate(a, b)`: `Segment` (segments.py:163-171), `SegmentWithPole` (803-826), `ConstSegment` (488-494),
`MInfSegment` (550-560), `PInfSegment` (639-649), `DiracSegment` (686-690).  The value computed on lines
816-818 is overwritten on line 819 and left out; the exponent defaults to `integration_pole.exponent`
(integration.py:255-256, 260-261). -/
noncomputable def integrate (q : Quad) (p : QPar) (s : Seg ℝ) (a : WithBot ℝ) (b : WithTop ℝ) : ℝ :=
  match s with
  | .fin .none sa sb _ => (q s.call (clipLo sa a) (clipHi sb b)).1
  | .fin .left sa sb _ =>
    if clipLo sa a = clipHi sb b then 0
    else (xnP q p.eps s.call (clipLo sa a) (clipHi sb b) p.expPole).1
  | .fin .right sa sb _ =>
    if clipLo sa a = clipHi sb b then 0
    else if clipHi sb b = sb then (xnN q p.eps s.call (clipLo sa a) (clipHi sb b) p.expPole).1
    else (xnN q p.eps s.call (clipLo sa a) sb p.expPole).1 - (xnN q p.eps s.call (clipHi sb b) sb p.expPole).1
  | .const sa sb c => c * (clipHi sb b - clipLo sa a)
  | .minf sb f =>
    match a with
    | none => (fejerM q f (some (clipHi sb b)) none p.expInf).1
    | some a => if a < clipHi sb b then (fejerM q f (some (clipHi sb b)) (some a) p.expInf).1 else 0
  | .pinf sa f =>
    match b with
    | none => (fejerP q f (some (clipLo sa a)) none p.expInf).1
    | some b => if b > clipLo sa a then (fejerP q f (some (clipLo sa a)) (some b) p.expInf).1 else 0
  | .dirac x m =>
    if (a < (x : WithBot ℝ) ∧ (x : WithTop ℝ) < b) ∨ (a = (x : WithBot ℝ) ∧ b = (x : WithTop ℝ)) then m else 0

/-- `segIntegral(x)`: `Segment` and its subclasses (segments.py:175-179), `MInfSegment` (564-568),
`PInfSegment` (653-657) -/
noncomputable def segIntegral (q : Quad) (p : QPar) (s : Seg ℝ) (x : ℝ) : ℝ :=
  match s with
  | .fin _ sa _ _ => s.integrate q p sa x
  | .const sa _ _ => s.integrate q p sa x
  | .minf _ _ => s.integrate q p ⊥ x
  | .pinf _ _ => s.integrate q p x ⊤
  | .dirac sa _ => s.integrate q p sa x

/-- `cumint(y0)`: `Segment` (segments.py:172-174), `SegmentWithPole` (835-837), `MInfSegment` (561-563),
`PInfSegment` (650-652), `DiracSegment` (691-693, a segment of length 0), with `call_segint` (41-45) and
`call_segint2` (46-50) -/
noncomputable def cumint (q : Quad) (p : QPar) (s : Seg ℝ) (y0 : ℝ) : Seg ℝ :=
  match s with
  | .fin pole a b _ => .fin pole a b fun x => y0 + s.segIntegral q p x
  | .const a b _ => .fin .none a b fun x => y0 + s.segIntegral q p x
  | .minf b _ => .minf b fun x => y0 + s.segIntegral q p x
  | .pinf a _ => .pinf a fun x => y0 - s.segIntegral q p x
  | .dirac a _ => .fin .none a a fun x => y0 + s.segIntegral q p x

end Seg

namespace PF

/-- `PiecewiseFunction.integrate(a, b)` (segments.py:1133-1142) -/
noncomputable def integrate (q : Quad) (p : QPar) (l : PF ℝ) (a : WithBot ℝ) (b : WithTop ℝ) : ℝ :=
  l.foldl (fun I s => I + s.integrate q p a b) 0

/-- the value `segi.f(segi.b)` for a segment with finite right end -/
def endVal : Seg ℝ → Option (ℝ × ℝ)
  | .fin _ _ b f => some (b, f b)
  | .const _ b c => some (b, c)
  | .minf b f => some (b, f b)
  | .pinf _ _ => none
  | .dirac a m => some (a, m)

/-- the loop of `cumint` (segments.py:1166-1176): state is the assembled function, `f0` and the last `segi`.
`none` is a failed assertion of `addSegment`. -/
noncomputable def cumintLoop (eps : ℝ) (q : Quad) (p : QPar) :
    PF ℝ → PF ℝ × ℝ × Option (Seg ℝ) → Option (PF ℝ × ℝ × Option (Seg ℝ))
  | [], st => some st
  | s :: l, (F, f0, _) =>
    let f0 := match s with
      | .pinf a _ => f0 + s.integrate q p a ⊤
      | _ => f0
    let segi := s.cumint q p f0
    match s with
    | .dirac _ m =>
      -- `f0 = f0 + seg.f`, overwritten by `f0 = segi.f(segi.b)`
      let f0 := match endVal segi with
        | some (_, v) => v
        | none => f0 + m
      cumintLoop eps q p l (F, f0, some segi)
    | _ =>
      (addSegment eps F segi).bind fun F =>
      let f0 := match endVal segi with
        | some (_, v) => v
        | none => f0
      cumintLoop eps q p l (F, f0, some segi)

/-- the constant right of the last piece (segments.py:1176-1178) -/
noncomputable def addTail (eps : ℝ) (F : PF ℝ) (f0 : ℝ) (segi : Seg ℝ) : Option (PF ℝ) :=
  match endVal segi with
  | some (b, v) => addSegment eps F (.pinf b fun _ => max f0 v)
  | none => some F

/-- the constant 0 left of the first piece (segments.py:1179-1180); `segments[0]` of an empty list raises -/
noncomputable def addHead (eps : ℝ) (F : PF ℝ) : Option (PF ℝ) :=
  match F with
  | [] => none
  | .minf _ _ :: _ => some F
  | .fin _ a _ _ :: _ => addSegment eps F (.minf a fun _ => 0)
  | .const a _ _ :: _ => addSegment eps F (.minf a fun _ => 0)
  | .pinf a _ :: _ => addSegment eps F (.minf a fun _ => 0)
  | .dirac a _ :: _ => addSegment eps F (.minf a fun _ => 0)

/-- `cumint` (segments.py:1163-1181).  On an empty function `segi` is unbound (an exception).  For a right tail
line 1176 evaluates `segi.f(inf)`, whose value is not used. -/
noncomputable def cumint (eps : ℝ) (q : Quad) (p : QPar) (l : PF ℝ) : Option (PF ℝ) :=
  (cumintLoop eps q p l ([], 0, none)).bind fun st =>
  st.2.2.bind fun segi =>
  (addTail eps st.1 st.2.1 segi).bind fun F => addHead eps F

/-- `Distr.cdf(x)` for a scalar (distr.py:130-132 with 85-90): build `cumint` and evaluate -/
noncomputable def cdf (eps : ℝ) (q : Quad) (p : QPar) (l : PF ℝ) (x : ℝ) : Option ℝ :=
  (cumint eps q p l).bind fun F => F.evalScalar x

/-- `Distr.cdf(x)` for an array, at one of its elements -/
noncomputable def cdfVec (eps : ℝ) (q : Quad) (p : QPar) (l : PF ℝ) (x : ℝ) : Option ℝ :=
  (cumint eps q p l).map fun F => F.evalVec x

end PF
end Pacal
