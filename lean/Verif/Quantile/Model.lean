import Verif.Law.Model
import Verif.Util.Roots
import Mathlib.Topology.Order.Real
import Mathlib.Topology.Separation.Basic

/-!
Model of the inverse of a cumulative distribution function (`/repo/pacal/segments.py`: `getSegVals`,
`PiecewiseFunction.inverse_scalar`) and of the functions of `/repo/pacal/distr.py` built on it: `quantile`, `ci`,
`interval`, `median`, `iqrange`.

The root finder `brentq` is a parameter `S`; `fin` (`np.isfinite`) and `fuel` (number of steps of the search for a bracket)
are those of `Util/Roots.lean`.  Of the value of a function at `±inf` it is assumed that it is the limit; for the functions
built by `cumint` the code returns `y0` because the integral from `inf` is 0 (integration.py:235-236, 243-244), which is the
limit.
-/

namespace Pacal
open Transform Filter

namespace Seg

/-- `seg(seg.a)` (segments.py:1510, 151-156, 679-685) -/
noncomputable def valLo : Seg ℝ → ℝ
  | .fin _ a _ f => f a
  | .const _ _ c => c
  | .minf _ f => limUnder atBot f
  | .pinf a f => f a
  | .dirac _ _ => 1

/-- `seg(seg.b)` (segments.py:1511, 151-156, 679-685) -/
noncomputable def valHi : Seg ℝ → ℝ
  | .fin _ _ b f => f b
  | .const _ _ c => c
  | .minf b f => f b
  | .pinf _ f => limUnder atTop f
  | .dirac _ _ => 1

end Seg

namespace Quantile
open Roots

/-- a float: `none` is NaN -/
abbrev Flt := Option EReal

/-- the parameters of the root finding -/
structure Finding where
  S : Finder ℝ
  fin : ℝ → Bool
  fuel : ℕ

/-- the result of the search on an unbounded piece as a float; an overflowed end is the infinite value `e` -/
noncomputable def resFlt (e : EReal) : Res ℝ → Flt
  | .nan => none
  | .infinite _ => some e
  | .root x => some x

/-- the inverse on one piece (segments.py:1805-1818).  (`segi.f` of an atom is a number: `TypeError`.) -/
noncomputable def solveSeg (P : Finding) (y : ℝ) : Seg ℝ → Except PyErr Flt
  | .minf b f => if y = 0 then .ok (some ⊥) else (findinvMinf P.fin P.S P.fuel f b y).map (resFlt ⊥)
  | .pinf a f => if y = 1 then .ok (some ⊤) else (findinvPinf P.fin P.S P.fuel f a y true).map (resFlt ⊤)
  | .fin _ a b f => (findinv P.S f a b y).map fun x => some (x : EReal)
  | .const a b c => (findinv P.S (fun _ => c) a b y).map fun x => some (x : EReal)
  | .dirac _ _ => .error .typ

/-- the test of the first loop (segments.py:1804) -/
def Hit (y : ℝ) (s : Seg ℝ) : Prop := (s.valLo ≤ y ∧ y ≤ s.valHi) ∨ (s.valLo ≥ y ∧ y ≥ s.valHi)

/-- the first loop (segments.py:1801-1818); `x` is the variable `x` of the code, `none` is Python's `None` -/
noncomputable def loop1 (P : Finding) (y : ℝ) : PF ℝ → Option Flt → Except PyErr (Option Flt)
  | [], x => .ok x
  | s :: c, x =>
    open Classical in
    if Hit y s then (solveSeg P y s).bind fun r => loop1 P y c (some r) else loop1 P y c x

/-- the second loop (segments.py:1820-1822).  `breaks[i+1]` exists because every piece has a new right end. -/
noncomputable def loop2 (brk : List EReal) (y : ℝ) : ℕ → PF ℝ → Option Flt → Option Flt
  | i, s :: t :: c, x =>
    open Classical in
    loop2 brk y (i + 1) (t :: c) (if s.valHi ≤ y ∧ y ≤ t.valLo then some (some (brk.getD (i + 1) 0)) else x)
  | _, _, x => x

/-- the correction for levels outside of the values (segments.py:1823-1829), and NaN if nothing was found (1830-1833).
Without pieces `min` raises `ValueError`. -/
noncomputable def fixCdf (c : PF ℝ) (y : ℝ) : Option Flt → Except PyErr Flt
  | some x => .ok x
  | none =>
    open Classical in
    if c = [] then .error .value
    else if 1 ≥ y ∧ ∀ s ∈ c, y > max s.valLo s.valHi then .ok (some ⊤)
    else if 0 ≤ y ∧ ∀ s ∈ c, y < min s.valLo s.valHi then .ok (some ⊥)
    else .ok none

/-- `inverse_scalar(y)` (segments.py:1796-1834) -/
noncomputable def inverseScalar (P : Finding) (c : PF ℝ) (y : ℝ) : Except PyErr Flt :=
  (loop1 P y c none).bind fun x => fixCdf c y (loop2 (PF.getBreaks c) y 0 c x)

/-- the parameters of the integration and of the assembly of pieces -/
structure Par where
  eps : ℝ
  q : Quad
  qp : QPar
  find : Finding

/-- `Distr.quantile(y)` for a scalar (distr.py:217-220), the distribution given by its piecewise density; a failed
construction of the CDF is an error -/
noncomputable def quantile (P : Par) (l : PF ℝ) (y : ℝ) : Except PyErr Flt :=
  match PF.cumint P.eps P.q P.qp l with
  | some c => inverseScalar P.find c y
  | none => .error .assertion

/-- `Distr.quantile(y)` for an array (distr.py:217-220 with segments.py:1835-1842) -/
noncomputable def quantiles (P : Par) (l : PF ℝ) (ys : List ℝ) : Except PyErr (List Flt) := ys.mapM (quantile P l)

/-- two quantiles -/
noncomputable def pair (P : Par) (l : PF ℝ) (u v : ℝ) : Except PyErr (Flt × Flt) :=
  (quantile P l u).bind fun a => (quantile P l v).map fun b => (a, b)

/-- `Distr.ci(p)` (distr.py:221-226) -/
noncomputable def ci (P : Par) (l : PF ℝ) (p : ℝ) : Except PyErr (Flt × Flt) := pair P l (p / 2) (1 - p / 2)

/-- `Distr.interval(p)` (distr.py:227-234) -/
noncomputable def interval (P : Par) (l : PF ℝ) (p : ℝ) : Except PyErr (Flt × Flt) :=
  let lim := (1 - p) / 2
  pair P l lim (1 - lim)

/-- `Distr.median()` (distr.py:191-193, segments.py:1927-1929) -/
noncomputable def median (P : Par) (l : PF ℝ) : Except PyErr Flt := quantile P l (1 / 2)

/-- `a - b` on floats: NaN for equal infinities -/
noncomputable def fltSub (a b : Flt) : Flt :=
  open Classical in
  a.bind fun a => b.bind fun b => if (a = ⊤ ∧ b = ⊤) ∨ (a = ⊥ ∧ b = ⊥) then none else some (a - b)

/-- `Distr.iqrange(level)` (distr.py:208-210) -/
noncomputable def iqrange (P : Par) (l : PF ℝ) (level : ℝ) : Except PyErr Flt :=
  (quantile P l (1 - level)).bind fun b => (quantile P l level).map fun a => fltSub b a

/-- `get_piecewise_cdf().rand(n)` (segments.py:2065-2071); the uniform draws are the argument -/
noncomputable def rand (P : Par) (l : PF ℝ) (draws : List ℝ) : Except PyErr (List Flt) := quantiles P l draws

end Quantile
end Pacal
