import Verif.Quantile.Model
import Verif.Push.Model
import Mathlib.Analysis.SpecialFunctions.Log.Basic

/-!
Model of the summary statistics of a distribution that are read off its piecewise density (`/repo/pacal/segments.py`): the
largest and smallest value (`maximum`, `minimum`, `max_abs`) and the mode, the median absolute deviation, the entropy and the
distances between two densities.

`scipy.optimize.fminbound` is the parameter `M`: `M g a b` is the point it returns for the function `g` on `[a, b]`.  As in
`Quantile/Model.lean` the value of a density at `±inf` is taken to be its limit.
-/

namespace Pacal.Summary
open Quantile Transform

/-- `fminbound(g, a, b)` -/
abbrev Minimizer := (ℝ → ℝ) → ℝ → ℝ → ℝ

/-! ### largest and smallest value -/

/-- the loop of `findRightpoint` (segments.py:595-599), `d = x - self.a` being positive; `fuel` bounds the number of rounds and
`none` stands for running out of it.  `thr` is `h0 * params.segments.plot.yminEpsilon`. -/
noncomputable def rightLoop (f : ℝ → ℝ) (a thr : ℝ) : ℕ → ℝ → Option ℝ
  | 0, _ => none
  | fuel + 1, x =>
    open Classical in
    if f x ≤ thr ∨ |f x - f (x + 1.2 * |x - a|)| ≤ thr then some x
    else
      let x' := x + 1.2 * |x - a|
      if |x'| > 1e20 then some x' else rightLoop f a thr fuel x'

/-- `PInfSegment.findRightpoint` (segments.py:591-600); `ym` is `params.segments.plot.yminEpsilon` (params.py:151) -/
noncomputable def findRightpoint (ym : ℝ) (fuel : ℕ) (f : ℝ → ℝ) (a : ℝ) : Option ℝ :=
  rightLoop f a (f (a + 1) * ym) fuel (a + 1)

/-- the loop of `findLeftpoint` (segments.py:509-513) -/
noncomputable def leftLoop (f : ℝ → ℝ) (b thr : ℝ) : ℕ → ℝ → Option ℝ
  | 0, _ => none
  | fuel + 1, x =>
    open Classical in
    if f x ≤ thr ∨ |f x - f (x - 1.2 * |x - b|)| ≤ thr then some x
    else
      let x' := x - 1.2 * |x - b|
      if |x'| > 1e20 then some x' else leftLoop f b thr fuel x'

/-- `MInfSegment.findLeftpoint` (segments.py:505-514) -/
noncomputable def findLeftpoint (ym : ℝ) (fuel : ℕ) (f : ℝ → ℝ) (b : ℝ) : Option ℝ :=
  leftLoop f b (f (b - 1) * ym) fuel (b - 1)

/-- the parameters of the search -/
structure Search where
  M : Minimizer
  ym : ℝ
  fuel : ℕ

/-- the last lines of the four methods for unbounded pieces: the better one of the ends, then a strictly better inner point
(segments.py:523-534, 538-549, 612-623, 627-638) -/
noncomputable def better (lt : ℝ → ℝ → Prop) (p q : EReal × ℝ) : EReal × ℝ :=
  open Classical in if lt p.2 q.2 then q else p

/-- `seg.maximum()`: `Segment` and its subclasses (segments.py:187-195), `MInfSegment` (520-534), `PInfSegment` (609-623),
`DiracSegment` (723-724).  With a pole on the left the code adds `1e-14` to the function, with a pole on the right to the left
end of the interval.  `none` is a search for the end of a tail which did not stop within the fuel. -/
noncomputable def segMaximum (P : Search) (s : Seg ℝ) : Option (EReal × ℝ) :=
  match s with
  | .fin .left a b f => let x := P.M (fun x => -s.call x + 1e-14) a b; some (x, f x)
  | .fin .right a b f => let x := P.M (fun x => -s.call x) (a + 1e-14) b; some (x, f x)
  | .fin .none a b f => let x := P.M (fun x => -s.call x) a b; some (x, f x)
  | .const a b c => let x := P.M (fun x => -s.call x) a b; some (x, c)
  | .minf b f =>
    -- `if fb >= fa: … self.b else: … self.a`
    let e := better (fun u v => ¬ u ≥ v) ((b : EReal), s.valHi) (⊥, s.valLo)
    (findLeftpoint P.ym P.fuel f b).map fun L =>
      let x := P.M (fun x => -s.call x) L b
      better (fun u v => v > u) e (x, s.call x)
  | .pinf a f =>
    let e := better (fun u v => ¬ u ≥ v) ((a : EReal), s.valLo) (⊤, s.valHi)
    (findRightpoint P.ym P.fuel f a).map fun R =>
      let x := P.M (fun x => -s.call x) a R
      better (fun u v => v > u) e (x, s.call x)
  | .dirac a m => some (a, m)

/-- `seg.minimum()`: `Segment` and its subclasses (segments.py:196-204), `MInfSegment` (535-549), `PInfSegment` (624-638),
`DiracSegment` (725-726) -/
noncomputable def segMinimum (P : Search) (s : Seg ℝ) : Option (EReal × ℝ) :=
  match s with
  | .fin .left a b f => let x := P.M s.call a b; some (x, f x)
  | .fin .right a b f => let x := P.M s.call (a + 1e-14) b; some (x, f x)
  | .fin .none a b f => let x := P.M s.call a b; some (x, f x)
  | .const a b c => let x := P.M s.call a b; some (x, c)
  | .minf b f =>
    let e := better (fun u v => ¬ u ≤ v) ((b : EReal), s.valHi) (⊥, s.valLo)
    (findLeftpoint P.ym P.fuel f b).map fun L =>
      let x := P.M s.call L b
      better (fun u v => v < u) e (x, s.call x)
  | .pinf a f =>
    let e := better (fun u v => ¬ u ≤ v) ((a : EReal), s.valLo) (⊤, s.valHi)
    (findRightpoint P.ym P.fuel f a).map fun R =>
      let x := P.M s.call a R
      better (fun u v => v < u) e (x, s.call x)
  | .dirac a m => some (a, m)

/-- `if m < mi: m = mi; x = xi` (segments.py:1255-1257), `if m > mi: …` (1265-1267) -/
noncomputable def keep (lt : ℝ → ℝ → Prop) : Option (EReal × ℝ) → EReal × ℝ → EReal × ℝ
  | none, r => r
  | some p, r => better lt p r

/-- the loop of `maximum` (segments.py:1253-1257); the state `none` is `x = None` with the initial `m = -inf`, on which every
value improves -/
noncomputable def maxLoop (P : Search) : PF ℝ → Option (EReal × ℝ) → Option (Option (EReal × ℝ))
  | [], st => some st
  | s :: l, st =>
    (segMaximum P s).bind fun r => maxLoop P l (some (keep (fun m mi => m < mi) st r))

/-- the loop of `minimum` (segments.py:1263-1267) -/
noncomputable def minLoop (P : Search) : PF ℝ → Option (EReal × ℝ) → Option (Option (EReal × ℝ))
  | [], st => some st
  | s :: l, st =>
    (segMinimum P s).bind fun r => minLoop P l (some (keep (fun m mi => m > mi) st r))

/-- `PiecewiseFunction.maximum()` (segments.py:1249-1258): the inner `none` is the pair `(None, -inf)` -/
noncomputable def maximum (P : Search) (l : PF ℝ) : Option (Option (EReal × ℝ)) := maxLoop P l none

/-- `PiecewiseFunction.minimum()` (segments.py:1259-1268) -/
noncomputable def minimum (P : Search) (l : PF ℝ) : Option (Option (EReal × ℝ)) := minLoop P l none

/-- `PiecewiseFunction.max_abs()` (segments.py:1242-1248), for a function with at least one piece -/
noncomputable def maxAbs (P : Search) (l : PF ℝ) : Option (Option (EReal × ℝ)) :=
  open Classical in
  (maximum P l).bind fun p => (minimum P l).map fun q => p.bind fun p => q.map fun q =>
    if |p.2| < |q.2| then (q.1, |q.2|) else p

/-- `Distr.mode()` (distr.py:239-241); the inner `none` is `None` -/
noncomputable def mode (P : Search) (l : PF ℝ) : Option (Option EReal) := (maximum P l).map fun r => r.map Prod.fst

/-- `PiecewiseDistribution.mode()` (segments.py:1959-1968): as `maximum`, but starting from `m = 0` -/
noncomputable def modeLoop (P : Search) : PF ℝ → Option EReal × ℝ → Option (Option EReal × ℝ)
  | [], st => some st
  | s :: l, st =>
    (segMaximum P s).bind fun r => open Classical in modeLoop P l (if st.2 < r.2 then (some r.1, r.2) else st)

/-- `PiecewiseDistribution.mode()` (segments.py:1959-1968) -/
noncomputable def pdMode (P : Search) (l : PF ℝ) : Option (Option EReal) := (modeLoop P l (none, 0)).map Prod.fst

/-! ### median absolute deviation -/

/-- `medianad()` (segments.py:1952-1958, distr.py:188-190).  A median which is not a finite number is not modelled further
(`.error .value`; the code would shift all pieces by it). -/
noncomputable def medianad (P : Par) (l : PF ℝ) : Except PyErr Flt :=
  (median P l).bind fun m =>
    match m with
    | some ((r : ℝ) : EReal) =>
      match (l.copyShiftedAndScaled P.eps (-r) 1).bind fun f1 => (f1.splitByPoints P.eps [0]).bind fun f2 => f2.copyAbsComposition P.eps with
      | some f3 => median P f3
      | none => .error .assertion
    | _ => .error .value

/-! ### entropy and distances -/

/-- `_safe_fun_on_f_call` (segments.py:104-105) with `numpy.log`: `nan_to_num` turns `log 0 = -inf` into minus the largest
float `big`, and the NaN of a negative argument into 0 -/
noncomputable def safeLog (big x : ℝ) : ℝ :=
  open Classical in if x = 0 then -big else if x < 0 then 0 else Real.log x

/-- the same with `lambda x: -numpy.log(x)` (segments.py:1719-1721) -/
noncomputable def safeLog1 (big x : ℝ) : ℝ :=
  open Classical in if x = 0 then big else if x < 0 then 0 else -Real.log x

/-- an atom whose mass is not positive -/
def badAtom (s : Seg ℝ) : Prop :=
  match s with
  | .dirac _ m => m ≤ 0
  | _ => False

/-- `_function__(fun)` (segments.py:1723-1744) for the two logarithms: `fun` applied to the values of every piece and to the
mass of every atom.  For an atom the code applies `fun` without `nan_to_num`, so that a mass that is not positive gives NaN or
an infinite value; this is `none` here. -/
noncomputable def mapFn (eps : ℝ) (h : ℝ → ℝ) (l : PF ℝ) : Option (PF ℝ) :=
  open Classical in
  if ∃ s ∈ l, badAtom s then none else
  PF.addAll eps [] (l.map fun s =>
    match s with
    | .minf b f => .minf b fun x => h (f x)
    | .pinf a f => .pinf a fun x => h (f x)
    | .fin pole a b f => .fin pole a b fun x => h (f x)
    | .const a b c => .fin .none a b fun _ => h c
    | .dirac a m => .dirac a (h m))

/-- the parameters of the integration and of the assembly of pieces; `big` is the largest float -/
structure DPar where
  eps : ℝ
  q : Quad
  qp : QPar
  big : ℝ

/-- `entropy()` (segments.py:1976-1978, distr.py:194-196) -/
noncomputable def entropy (P : DPar) (l : PF ℝ) : Option ℝ :=
  (mapFn P.eps (safeLog1 P.big) l).bind fun g =>
  (PF.operation P.eps (fun x y => x * y) l g).map fun r => r.integrate P.q P.qp ⊥ ⊤

/-- `L2_distance(other)` (segments.py:1980-1982, distr.py:200-202) -/
noncomputable def l2Distance (P : DPar) (f g : PF ℝ) : Option ℝ :=
  (PF.operation P.eps (fun x y => x - y) f g).bind fun d =>
  (PF.operation P.eps (fun x y => x * y) d d).map fun r => (r.integrate P.q P.qp ⊥ ⊤) ^ (0.5 : ℝ)

/-- `KL_distance(other)` (segments.py:1984-1986, distr.py:197-199) -/
noncomputable def klDistance (P : DPar) (f g : PF ℝ) : Option ℝ :=
  (mapFn P.eps (safeLog P.big) f).bind fun lf =>
  (mapFn P.eps (safeLog P.big) g).bind fun lg =>
  (PF.operation P.eps (fun x y => x - y) lf lg).bind fun d =>
  (PF.operation P.eps (fun x y => x * y) f d).map fun r => r.integrate P.q P.qp ⊥ ⊤

end Pacal.Summary
