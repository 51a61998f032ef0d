import Verif.Distr.Discrete
import Verif.Law.ModelInterp

/-! The interpolated copy of the complementary distribution function. -/

namespace Pacal
open Transform

/-- `get_piecewise_ccdf()` (distr.py:99-105): `1 - get_piecewise_cdf()`, which is again a `CumulativePiecewiseFunction`
(segments.py:1632) -/
noncomputable def PF.ccdfFun (eps : ℝ) (q : Quad) (p : QPar) (l : PF ℝ) : Option (PF ℝ) :=
  (PF.cumint eps q p l).bind fun c => PF.rsubReal eps c 1

/-- `get_piecewise_ccdf_interp()` (distr.py:106-113) -/
noncomputable def PF.ccdfInterp (eps : ℝ) (q : Quad) (p : QPar) (I : Interpolators) (atInf : (ℝ → ℝ) → Option ℝ) (l : PF ℝ) :
    Option (PF ℝ) :=
  (PF.ccdfFun eps q p l).bind (PF.toInterpolatedCum eps I atInf)

end Pacal
