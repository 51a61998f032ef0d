import Verif.Segments.Model
import Verif.Segments.Eval
import Verif.Base.Err
import Mathlib.Analysis.SpecialFunctions.Log.Basic
import Mathlib.Analysis.SpecialFunctions.Pow.Real

/-!
Model of the estimation of exponents from values of a function: tail exponents
(`estimateTailExponent`, utils.py:468-494, with `tailexp` of segments.py and distr.py) and the detection of
poles (`estimateDegreeOfPole`, utils.py:233-261, `testPole`, utils.py:289-311).

Numbers are real (no rounding); `log` and powers of ten are exact.
-/

namespace Pacal
namespace Tail

open Real

/-- `np.logspace(a, b, N)`: `N` powers of ten with equidistant exponents from `a` to `b` (numpy, assumed) -/
noncomputable def logspace (a b : ℝ) (N : ℕ) : List ℝ :=
  (List.range N).map fun k : ℕ => (10 : ℝ) ^ (a + k * ((b - a) / (N - 1)))

/-- `l[1:] - l[0:-1]` of two adjacent entries, in the order given by `g` -/
noncomputable def adj (g : ℝ → ℝ → ℝ) (l : List ℝ) : List ℝ := List.zipWith g l.dropLast l.tail

/-- `ri[-1] / di[-1]`; indexing an empty array raises `IndexError` -/
noncomputable def lastRatio (ri di : List ℝ) : Except PyErr ℝ :=
  match ri.getLast?, di.getLast? with
  | some r, some d => .ok (r / d)
  | _, _ => .error .index

/-- a real number or `np.inf` -/
inductive Expo where
  | num (x : ℝ)
  | inf

/-- `estimateTailExponent` (utils.py:468-494), without the plots; `fromTo = (1, 100)`, `N = 300` are the
defaults. The values of `f` are finite numbers, so `y > 0` (line 479) fails only where the value is 0. -/
noncomputable def tailExponent (f : ℝ → ℝ) (pos : Bool) (fromTo : ℝ × ℝ := (1, 100)) (N : ℕ := 300) :
    Except PyErr Expo :=
  open Classical in
  let ex := logspace fromTo.1 fromTo.2 N
  let pts := ex.map fun e =>
    if pos then (log e, |f e|) else (-log e, |f (-e)|)
  let pts := pts.filter fun p => p.2 > 0
  let xi := pts.map Prod.fst
  let yi := pts.map fun p => log p.2
  let ri := adj (fun u v => v - u) yi
  let di := adj (fun u v => |v - u|) xi
  if 1 < yi.length then
    (lastRatio ri di).map fun e => if e > 50 then .inf else .num e
  else .ok (.num 0)

/-- `seg.tailexp()`: `MInfSegment` passes its function (segments.py:579-580), `PInfSegment` itself
(segments.py:668-669); the other classes have no such method and are never asked. -/
noncomputable def segTailexp : Seg ℝ → Except PyErr Expo
  | .minf _ f => tailExponent f false
  | s => tailExponent s.call true

/-- `isMInf` (segments.py:142, 577) -/
def isMInf : Seg ℝ → Bool
  | .minf _ _ => true
  | _ => false

/-- `isPInf` (segments.py:140, 666) -/
def isPInf : Seg ℝ → Bool
  | .pinf _ _ => true
  | _ => false

/-- `PiecewiseDistribution.tailexp` (segments.py:1988-1999), `Distr.tailexp` (distr.py:235-237): the exponents
of the left and the right tail, `none` for `None` -/
noncomputable def tailexp (l : PF ℝ) : Except PyErr (Option Expo × Option Expo) :=
  match l.head?, l.getLast? with
  | some s, some t => do
    let mexp ← if isMInf s then (segTailexp s).map some else .ok none
    let pexp ← if isPInf t then (segTailexp t).map some else .ok none
    .ok (mexp, pexp)
  | _, _ => .error .index

/-- one sample point: the pair of logarithms (utils.py:241-249), `none` if it is dropped by
`isfinite` (utils.py:250-252). `f` returns `none` where its value is not a finite number. -/
noncomputable def sample (f : ℝ → Option ℝ) (x : ℝ) (pos : Bool) (e : ℝ) : Option (ℝ × ℝ) :=
  open Classical in
  (f (if pos then x + e else x - e)).bind fun y => if y = 0 then none else some (log |e|, log |y|)

/-- `estimateDegreeOfPole` (utils.py:233-261); the argument `deriv` is not used by the code. -/
noncomputable def degreeOfPole (f : ℝ → Option ℝ) (x : ℝ) (pos : Bool) (N : ℕ := 10) : Except PyErr ℝ :=
  open Classical in
  let ex := if x = 0 then logspace (-1) (-10) N else logspace (-1) (-7) N
  let pts := ex.filterMap (sample f x pos)
  let xi := pts.map Prod.fst
  let yi := pts.map Prod.snd
  let ri := adj (fun u v => u - v) yi
  let di := adj (fun u v => |v - u|) xi
  if 1 < yi.length then lastRatio ri di else .ok 0

/-- `testPole` (utils.py:289-311); the defaults of `pole_eps` and `deriv` are
`params.pole_detection.max_pole_exponent = -1e-2` and `params.pole_detection.derivative = True`
(params.py:55, 62). -/
noncomputable def testPole (f : ℝ → Option ℝ) (x : ℝ) (pos : Bool) (poleEps : ℝ := -1e-2)
    (deriv : Bool := true) : Except PyErr Bool :=
  open Classical in
  (degreeOfPole f x pos).map fun deg =>
  if deriv then
    if (|deg| ≥ |poleEps| ∧ deg ≤ 1 - |poleEps|) ∨ (deg ≥ 1 + |poleEps| ∧ deg ≤ 2 - |poleEps|) ∨ deg > 2 then true
    else false
  else
    if deg ≥ poleEps then false else true

end Tail
end Pacal
