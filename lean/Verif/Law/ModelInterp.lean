import Verif.Law.Model

/-!
Model of the interpolated copies of densities and distribution functions (`/repo/pacal/segments.py`: `toInterpolated` of
`PiecewiseFunction` and `CumulativePiecewiseFunction`, `toInterpolatedSegment`; `/repo/pacal/distr.py`: `get_piecewise_cdf_interp`).

The interpolators themselves (`ChebyshevInterpolator`, `PoleInterpolatorP`, `PoleInterpolatorN`, `MInfInterpolator`, `PInfInterpolator`)
are arbitrary here; they are the subject of C39-C41, C64 and C72.
-/

namespace Pacal
open Transform

/-- the interpolators of a function on a piece without pole, with a pole on the left or on the right, on `(-inf, b]` and on `[a, inf)` -/
structure Interpolators where
  plain : (ℝ → ℝ) → ℝ → ℝ → ℝ → ℝ
  left : (ℝ → ℝ) → ℝ → ℝ → ℝ → ℝ
  right : (ℝ → ℝ) → ℝ → ℝ → ℝ → ℝ
  minf : (ℝ → ℝ) → ℝ → ℝ → ℝ
  pinf : (ℝ → ℝ) → ℝ → ℝ → ℝ

/-- `toInterpolatedSegment()` of `Segment` (segments.py:207-220, called without arguments; `ConstSegment` inherits it),
`SegmentWithPole` (877-878 with 903-908), `MInfSegment` (501-504), `PInfSegment` (587-590) and `DiracSegment` (710-711) -/
def Seg.interpolated (I : Interpolators) : Seg ℝ → Seg ℝ
  | .fin .none a b f => .fin .none a b (I.plain f a b)
  | .fin .left a b f => .fin .left a b (I.left f a b)
  | .fin .right a b f => .fin .right a b (I.right f a b)
  | .const a b c => .fin .none a b (I.plain (fun _ => c) a b)
  | .minf b f => .minf b (I.minf f b)
  | .pinf a f => .pinf a (I.pinf f a)
  | .dirac a m => .dirac a m

/-- `PiecewiseFunction.toInterpolated` (segments.py:1127-1131) -/
noncomputable def PF.toInterpolated (eps : ℝ) (I : Interpolators) (l : PF ℝ) : Option (PF ℝ) :=
  PF.addAll eps [] (l.map (Seg.interpolated I))

open Classical in
/-- one piece in `CumulativePiecewiseFunction.toInterpolated` (segments.py:2016-2021).  `atInf f` is the value of `f` at infinity, where
the piece `[a, inf)` is evaluated twice (`seg.b` and `2 * seg.b` are both infinite); `none` is NaN, which differs from itself. -/
noncomputable def Seg.interpolatedCum (I : Interpolators) (atInf : (ℝ → ℝ) → Option ℝ) : Seg ℝ → Seg ℝ
  | .minf b f => if f b = f (2 * b) then .minf b f else .minf b (I.minf f b)
  | .pinf a f => if (atInf f).isSome then .pinf a f else .pinf a (I.pinf f a)
  | s => s.interpolated I

/-- `CumulativePiecewiseFunction.toInterpolated` (segments.py:2010-2022) -/
noncomputable def PF.toInterpolatedCum (eps : ℝ) (I : Interpolators) (atInf : (ℝ → ℝ) → Option ℝ) (l : PF ℝ) : Option (PF ℝ) :=
  PF.addAll eps [] (l.map (Seg.interpolatedCum I atInf))

/-- `get_piecewise_cdf_interp()` (distr.py:91-98) -/
noncomputable def PF.cdfInterp (eps : ℝ) (q : Quad) (p : QPar) (I : Interpolators) (atInf : (ℝ → ℝ) → Option ℝ) (l : PF ℝ) :
    Option (PF ℝ) :=
  (PF.cumint eps q p l).bind (PF.toInterpolatedCum eps I atInf)

end Pacal
