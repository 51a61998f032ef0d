import Verif.Segments.Model
import Mathlib.Analysis.SpecialFunctions.Pow.Real
import Mathlib.Data.EReal.Operations

/-!
Model of the standard continuous distributions (`/repo/pacal/standard_distr.py`) and of the constructor of a piecewise
function from a function and break points (`/repo/pacal/segments.py`, `PiecewiseFunction.__init__`).

* Floats are reals, or `Flt` (a real, an infinity or NaN) where a density is infinite or undefined at an end point.
* Of every density the scalar branch is modelled; the array branches compute the same expression elementwise, except where
  stated.  `wrap_pdf` (utils.py:56-59) returns its argument or a picklable version of it: identity.
* `none` as the result of a constructor is an exception (`assert`, `raise`).
* `lg` is `utils.lgamma`; it is a parameter.
* Samplers, names and `**kwargs` are not modelled here.
-/

namespace Pacal.Standard
open Real

/-- a float: `none` is NaN -/
abbrev Flt := Option EReal

/-- a real as a float -/
def Flt.real (x : ℝ) : Flt := some (x : EReal)

/-- `a + b` of floats: `inf + (-inf)` is NaN -/
noncomputable def Flt.add : Flt → Flt → Flt
  | some a, some b => if (a = ⊤ ∧ b = ⊥) ∨ (a = ⊥ ∧ b = ⊤) then none else some (a + b)
  | _, _ => none

/-- `a * b` of floats: `0 * inf` is NaN -/
noncomputable def Flt.mul : Flt → Flt → Flt
  | some a, some b => if (a = 0 ∧ (b = ⊤ ∨ b = ⊥)) ∨ (b = 0 ∧ (a = ⊤ ∨ a = ⊥)) then none else some (a * b)
  | _, _ => none

/-- `numpy.log`: `-inf` at 0, NaN below -/
noncomputable def Flt.log (x : ℝ) : Flt := if 0 < x then some (Real.log x : ℝ) else if x = 0 then some ⊥ else none

/-- `numpy.exp` -/
noncomputable def Flt.exp : Flt → Flt
  | none => none
  | some a => if a = ⊤ then some ⊤ else if a = ⊥ then some 0 else some (Real.exp a.toReal : ℝ)

/-- The function stored in a segment: the value of the density where it is a real number.  (An infinite or undefined
value at a single point is replaced by 0; which points these are is part of the statements about the densities.) -/
noncomputable def realPart (f : ℝ → Flt) (x : ℝ) : ℝ := ((f x).getD 0).toReal

/-- the piece between two finite break points `a < b` with flags `lpoles[i]`, `rpoles[i]`, `rpoles[i+1]`
(segments.py:1018-1025, 1032-1039, 1044-1051).  The third test looks at `rpoles[i]`, not `lpoles[i]`. -/
def finPiece (f : ℝ → ℝ) (a b : ℝ) (lp rp rp' : Bool) : Option (Seg ℝ) :=
  if lp = false ∧ rp' = false then some (.fin .none a b f)
  else if lp = true ∧ rp' = false then some (.fin .left a b f)
  else if rp = false ∧ rp' = true then some (.fin .right a b f)
  else none

/-- a break point as a real number; `none` for an infinite one, at which the model has no finite piece -/
def finite? (e : Ext ℝ) : Option ℝ :=
  match e with
  | some (some x) => some x
  | _ => none

/-- a break point with its entries of `lpoles` and `rpoles` -/
structure Break where
  at_ : Ext ℝ
  lp : Bool
  rp : Bool

/-- the loop and the last piece (segments.py:1029-1051); the piece up to the last break point extends to infinity if that
point is infinite -/
noncomputable def laterPieces (f : ℝ → ℝ) : List Break → Option (List (Seg ℝ))
  | p :: q :: r :: l => (finite? p.at_).bind fun a => (finite? q.at_).bind fun b =>
      (finPiece f a b p.lp p.rp q.rp).bind fun s => (laterPieces f (q :: r :: l)).map (s :: ·)
  | [p, q] => (finite? p.at_).bind fun a =>
      if q.at_ = Ext.ninf ∨ q.at_ = Ext.pinf then some [.pinf a f]
      else (finite? q.at_).bind fun b => (finPiece f a b p.lp p.rp q.rp).map ([·])
  | _ => some []

/-- the first piece and the following ones (segments.py:1015-1051).  An infinite right end of the first piece, or infinite
inner break points, give a segment class used outside its purpose (`Segment(a, inf)`); the model has no such
segment and returns `none`. -/
noncomputable def pieces (f : ℝ → ℝ) : List Break → Option (List (Seg ℝ))
  | p :: q :: l =>
    (if p.at_ = Ext.ninf ∨ p.at_ = Ext.pinf then (finite? q.at_).map fun b => Seg.minf b f
      else (finite? p.at_).bind fun a => (finite? q.at_).bind fun b => finPiece f a b p.lp p.rp q.rp).bind fun s =>
    (laterPieces f (q :: l)).map (s :: ·)
  | _ => none

/-- `PiecewiseFunction(fun = f, breakPoints = bps, lpoles = lp, rpoles = rp)` (segments.py:998-1051); `lp`, `rp` are `none`
when not given. -/
noncomputable def ofFun (eps : ℝ) (f : ℝ → ℝ) (bps : List (Ext ℝ)) (lp rp : Option (List Bool)) : Option (PF ℝ) :=
  let l := lp.getD (bps.map fun _ => false)
  let r := rp.getD (bps.map fun _ => false)
  match bps, bps.getLast? with
  | b₀ :: b₁ :: _, some bₙ =>
    if b₀ < b₁ ∧ b₁ ≤ bₙ ∧ bps.length = r.length ∧ r.length = l.length then
      (pieces f (List.zipWith (fun b lr => ⟨b, lr.1, lr.2⟩) bps (l.zip r))).bind (PF.addAll eps [])
    else none
  | _, _ => none

/-- `FunDistr(fun, breakPoints, lpoles = lp, rpoles = rp)` and its `init_piecewise_pdf` (standard_distr.py:29-36, 41-42; not
interpolated).  The keyword arguments are first handed to `Distr.__init__` (distr.py:46), which knows neither `lpoles` nor
`rpoles` and raises a `TypeError` if one is given. -/
noncomputable def funDistr (eps : ℝ) (f : ℝ → ℝ) (bps : List (Ext ℝ)) (lp rp : Option (List Bool)) : Option (PF ℝ) :=
  if lp.isSome || rp.isSome then none else ofFun eps f bps lp rp

/-! ## NormalDistr (standard_distr.py:141-171) -/

/-- `pdf` (standard_distr.py:160-163, 148-149) -/
noncomputable def normalPdf (mu sigma x : ℝ) : ℝ :=
  let oneOverTwoSigma2 := 0.5 / (sigma * sigma)
  let nrm := 1 / (sigma * √(2 * π))
  let q := (x - mu) ^ 2 * oneOverTwoSigma2
  nrm * exp (-q)

/-- `NormalDistr(mu, sigma)` and `init_piecewise_pdf` (standard_distr.py:142-159) -/
noncomputable def normal (eps mu sigma : ℝ) : Option (PF ℝ) :=
  if sigma ≤ 0 then none
  else
    let b1 := mu - sigma
    let b2 := mu + sigma
    let f := normalPdf mu sigma
    PF.addAll eps [] [.minf b1 f, .fin .none b1 b2 f, .pinf b2 f]

/-! ## UniformDistr (standard_distr.py:173-189) -/

/-- `UniformDistr(a, b)` (standard_distr.py:174-181); `1.0 / float(b-a)` raises for `a = b` -/
noncomputable def uniform (eps a b : ℝ) : Option (PF ℝ) :=
  if b - a = 0 then none else PF.addAll eps [] [.const a b (1 / (b - a))]

/-! ## TrapezoidalDistr (standard_distr.py:191-218) -/

/-- `_lin_fun1` (standard_distr.py:191-192) -/
noncomputable def linFun1 (a b u x : ℝ) : ℝ := u * (x - a) / (b - a)

/-- `_lin_fun2` (standard_distr.py:193-194) -/
noncomputable def linFun2 (c d u x : ℝ) : ℝ := u * (d - x) / (d - c)

/-- `TrapezoidalDistr(a, b, c, d)` (standard_distr.py:196-210) -/
noncomputable def trapezoidal (eps a b c d : ℝ) : Option (PF ℝ) :=
  if d + c - (b + a) = 0 then none
  else
    let u := 2 / (d + c - (b + a))
    PF.addAll eps [] ((if a < b then [.fin .none a b (linFun1 a b u)] else []) ++
      (if b < c then [.const b c u] else []) ++
      (if c < d then [.fin .none c d (linFun2 c d u)] else []))

/-! ## CauchyDistr (standard_distr.py:220-246) -/

/-- `pdf` (standard_distr.py:225-226) -/
noncomputable def cauchyPdf (gamma center x : ℝ) : ℝ :=
  gamma / (π * (gamma * gamma + (x - center) * (x - center)))

/-- `CauchyDistr(gamma, center)` (standard_distr.py:221-235); the parameters are not checked -/
noncomputable def cauchy (eps gamma center : ℝ) : Option (PF ℝ) :=
  let b1 := center - gamma
  let b2 := center + gamma
  let f := cauchyPdf gamma center
  PF.addAll eps [] [.minf b1 f, .fin .none b1 b2 f, .pinf b2 f]

/-! ## ChiSquareDistr (standard_distr.py:248-321) -/

/-- `pdf_at_0` (standard_distr.py:255-263) -/
noncomputable def chiSquareAt0 (df : ℝ) : Flt :=
  if df = 1 then some ⊤ else if df = 2 then Flt.real 0.5 else Flt.real 0

/-- `log_pdf` for `x > 0` (standard_distr.py:253-254, 264-266) -/
noncomputable def chiSquareLogPdf (lg : ℝ → ℝ) (df x : ℝ) : ℝ :=
  let df2 := df / 2
  let lgNorm := lg df2 + df2 * log 2
  (df2 - 1) * log x - x / 2 - lgNorm

/-- `pdf` (standard_distr.py:267-281) -/
noncomputable def chiSquarePdf (lg : ℝ → ℝ) (df x : ℝ) : Flt :=
  if x < 0 then Flt.real 0 else if x = 0 then chiSquareAt0 df else Flt.real (exp (chiSquareLogPdf lg df x))

/-- `ChiSquareDistr(df)` (standard_distr.py:249-296).  For `df < 1` `init_piecewise_pdf` only prints a message and leaves
`piecewise_pdf` as it was, `None`: every use of the density fails, here `none`. -/
noncomputable def chiSquare (eps : ℝ) (lg : ℝ → ℝ) (df : ℝ) : Option (PF ℝ) :=
  if 0 < df then
    let f := realPart (chiSquarePdf lg df)
    if 1 ≤ df ∧ df ≤ 20 then
      ofFun eps f [.fin 0, .fin (df / 2), .fin (df * 2), .pinf] (some [true, false, false, false]) none
    else if 20 < df then
      ofFun eps f [.fin 0, .fin (df * 0.75), .fin (df * 4 / 3), .pinf] (some [true, false, false, false]) none
    else none
  else none

/-! ## ExponentialDistr (standard_distr.py:323-350) -/

/-- `pdf` (standard_distr.py:327-337) -/
noncomputable def exponentialPdf (lmbda x : ℝ) : ℝ := if x < 0 then 0 else lmbda * exp (-lmbda * x)

/-- `ExponentialDistr(lmbda)` (standard_distr.py:324-342); the parameter is not checked -/
noncomputable def exponential (eps lmbda : ℝ) : Option (PF ℝ) :=
  let f := exponentialPdf lmbda
  PF.addAll eps [] [.fin .none 0 1 f, .pinf 1 f]

/-- `pdf` on an array of integers (standard_distr.py:333-337): `zeros_like(x)` is then an array of integers, and the
assignment truncates the values (towards 0; they are nonnegative for `lmbda > 0`) -/
noncomputable def exponentialPdfInts (lmbda : ℝ) (xs : List ℤ) : List ℤ :=
  xs.map fun x : ℤ => if 0 ≤ x then ⌊lmbda * exp (-lmbda * (x : ℝ))⌋ else 0

/-! ## GammaDistr (standard_distr.py:352-409) -/

/-- `pdf_at_0` (standard_distr.py:360-368) -/
noncomputable def gammaAt0 (k theta : ℝ) : Flt :=
  if k < 1 then some ⊤ else if k = 1 then Flt.real (1 / theta) else Flt.real 0

/-- `log_pdf` for `x > 0` (standard_distr.py:359, 369-371) -/
noncomputable def gammaLogPdf (lg : ℝ → ℝ) (k theta x : ℝ) : ℝ :=
  let lgNorm := lg k + k * log theta
  (k - 1) * log x - x / theta - lgNorm

/-- `pdf` (standard_distr.py:372-386) -/
noncomputable def gammaPdf (lg : ℝ → ℝ) (k theta x : ℝ) : Flt :=
  if x < 0 then Flt.real 0 else if x = 0 then gammaAt0 k theta else Flt.real (exp (gammaLogPdf lg k theta x))

/-- `GammaDistr(k, theta)` (standard_distr.py:353-401) -/
noncomputable def gamma (eps : ℝ) (lg : ℝ → ℝ) (k theta : ℝ) : Option (PF ℝ) :=
  if 0 < k ∧ 0 < theta then
    let f := realPart (gammaPdf lg k theta)
    if k < 1 then PF.addAll eps [] [.fin .left 0 1 f, .pinf 1 f]
    else if k = 1 then PF.addAll eps [] [.fin .none 0 1 f, .pinf 1 f]
    else
      let mode := (k - 1) * theta
      PF.addAll eps [] [.fin .none 0 (mode / 2) f, .fin .none (mode / 2) mode f, .fin .none mode (2 * mode) f,
        .pinf (2 * mode) f]
  else none

/-! ## BetaDistr (standard_distr.py:411-457) -/

/-- `pdf` (standard_distr.py:416-427) -/
noncomputable def betaPdf (lg : ℝ → ℝ) (alpha beta x : ℝ) : Flt :=
  let lgNorm := lg (alpha + beta) - lg alpha - lg beta
  if x < 0 ∨ x > 1 then Flt.real 0
  else Flt.exp (((Flt.real lgNorm).add ((Flt.log x).mul (Flt.real (alpha - 1)))).add
    ((Flt.log (1 - x)).mul (Flt.real (beta - 1))))

/-- `BetaDistr(alpha, beta)` (standard_distr.py:412-449); `mpe` is `params.pole_detection.max_pole_exponent`, the parameters
are not checked -/
noncomputable def beta (eps mpe : ℝ) (lg : ℝ → ℝ) (alpha beta : ℝ) : Option (PF ℝ) :=
  let m := 0.5
  let f := realPart (betaPdf lg alpha beta)
  let poleL := alpha < 2 ∧ |alpha - 1| > mpe
  let poleR := beta < 2 ∧ |beta - 1| > mpe
  open Classical in
  if poleL ∧ poleR then PF.addAll eps [] [.fin .left 0 m f, .fin .right m 1 f]
  else if poleL then PF.addAll eps [] [.fin .left 0 m f, .fin .none m 1 f]
  else if poleR then PF.addAll eps [] [.fin .none 0 m f, .fin .right m 1 f]
  else PF.addAll eps [] [.fin .none 0 m f, .fin .none m 1 f]

/-! ## ParetoDistr (standard_distr.py:459-490) -/

/-- `pdf` (standard_distr.py:466-477) -/
noncomputable def paretoPdf (alpha xmin x : ℝ) : ℝ :=
  let nrm := alpha * xmin ^ alpha
  if x < xmin then 0 else nrm / x ^ (alpha + 1)

/-- `ParetoDistr(alpha, xmin)` (standard_distr.py:460-482) -/
noncomputable def pareto (eps alpha xmin : ℝ) : Option (PF ℝ) :=
  if 0 < alpha ∧ 0 < xmin then
    let f := paretoPdf alpha xmin
    PF.addAll eps [] [.fin .none xmin (xmin + 1) f, .pinf (xmin + 1) f]
  else none

/-! ## LevyDistr (standard_distr.py:492-523) -/

/-- `pdf` (standard_distr.py:498-509) -/
noncomputable def levyPdf (c xmin x : ℝ) : ℝ :=
  let nrm := √(c / (2 * π))
  if x ≤ xmin then 0 else nrm * exp (log (x - xmin) * (-1.5) - 0.5 * c / (x - xmin))

/-- `LevyDistr(c, xmin)` (standard_distr.py:493-514) -/
noncomputable def levy (eps c xmin : ℝ) : Option (PF ℝ) :=
  if 0 < c then
    let f := levyPdf c xmin
    PF.addAll eps [] [.fin .none xmin (xmin + c) f, .pinf (xmin + c) f]
  else none

/-! ## LaplaceDistr (standard_distr.py:525-550) -/

/-- `pdf` (standard_distr.py:531-534) -/
noncomputable def laplacePdf (lmbda mu x : ℝ) : ℝ :=
  let nrm := 0.5 / lmbda
  nrm * exp (-|x - mu| / lmbda)

/-- `LaplaceDistr(lmbda, mu)` (standard_distr.py:526-542) -/
noncomputable def laplace (eps lmbda mu : ℝ) : Option (PF ℝ) :=
  if 0 < lmbda then
    let f := laplacePdf lmbda mu
    PF.addAll eps [] [.minf (mu - 2 * lmbda) f, .fin .none (mu - 2 * lmbda) mu f, .fin .none mu (mu + 2 * lmbda) f,
      .pinf (mu + 2 * lmbda) f]
  else none

/-! ## StudentTDistr (standard_distr.py:552-576) -/

/-- `pdf` (standard_distr.py:557-560) -/
noncomputable def studentTPdf (lg : ℝ → ℝ) (df x : ℝ) : ℝ :=
  let lgNorm := lg ((df + 1) / 2) - lg (df / 2) - 0.5 * (log df + log π)
  exp (lgNorm - (df + 1) / 2 * log (1 + x ^ 2 / df))

/-- `StudentTDistr(df)` (standard_distr.py:553-568) -/
noncomputable def studentT (eps : ℝ) (lg : ℝ → ℝ) (df : ℝ) : Option (PF ℝ) :=
  if 0 < df then
    let infl := √(df / (df + 2))
    let f := studentTPdf lg df
    PF.addAll eps [] [.minf (-infl) f, .fin .none (-infl) infl f, .pinf infl f]
  else none

/-! ## SemicircleDistr (standard_distr.py:578-607) -/

/-- `pdf` on a scalar (standard_distr.py:583-587, 592); `none` is the `UnboundLocalError` of `return y` -/
noncomputable def semicirclePdf (R x : ℝ) : Option ℝ :=
  let norm := 2 / (π * R * R)
  if -R ≤ x ∧ x ≤ R then some (norm * √(R * R - x * x)) else none

/-- `pdf` on an array (standard_distr.py:588-592): the right hand side has the length of the whole array, the left hand
side one entry for every `True` in the mask; numpy raises (`none`) unless the lengths agree or the right hand side has
length one -/
noncomputable def semicirclePdfArray (R : ℝ) (xs : List ℝ) : Option (List ℝ) :=
  let norm := 2 / (π * R * R)
  let inside := xs.filter fun x => decide (-R ≤ x) && decide (x ≤ R)
  if inside.length = xs.length ∨ xs.length = 1 then
    some (xs.map fun x => if -R ≤ x ∧ x ≤ R then norm * √(R * R - x * x) else 0)
  else none

/-- `SemicircleDistr(R)` (standard_distr.py:579-599) -/
noncomputable def semicircle (eps R : ℝ) : Option (PF ℝ) :=
  if 0 < R then
    let f := fun x => (semicirclePdf R x).getD 0
    PF.addAll eps [] [.fin .left (-R) (-R / 2) f, .fin .none (-R / 2) (R / 2) f, .fin .right (R / 2) R f]
  else none

/-! ## FDistr (standard_distr.py:609-658) -/

/-- `pdf_at_0` (standard_distr.py:615-620) -/
noncomputable def fAt0 (df1 : ℝ) : Flt := if df1 < 2 then some ⊤ else if df1 = 2 then Flt.real 1 else Flt.real 0

/-- the exponent for `x > 0` (standard_distr.py:614, 628) -/
noncomputable def fLogPdf (lg : ℝ → ℝ) (df1 df2 x : ℝ) : ℝ :=
  let lgNorm := df2 / 2 * log df2 + lg ((df1 + df2) / 2) - lg (df1 / 2) - lg (df2 / 2)
  lgNorm + 0.5 * (df1 * log (df1 * x) - (df1 + df2) * log (df1 * x + df2)) - log x

/-- `pdf` (standard_distr.py:621-636) -/
noncomputable def fPdf (lg : ℝ → ℝ) (df1 df2 x : ℝ) : Flt :=
  if x < 0 then Flt.real 0 else if x = 0 then fAt0 df1 else Flt.real (exp (fLogPdf lg df1 df2 x))

/-- `FDistr(df1, df2)` (standard_distr.py:610-650); the parameters are not checked -/
noncomputable def fDistr (eps : ℝ) (lg : ℝ → ℝ) (df1 df2 : ℝ) : Option (PF ℝ) :=
  let f := realPart (fPdf lg df1 df2)
  if df1 < 2 then PF.addAll eps [] [.fin .left 0 1 f, .pinf 1 f]
  else if df1 = 2 then PF.addAll eps [] [.fin .none 0 1 f, .pinf 1 f]
  else
    let mode := (df1 - 2) / df1 * df2 / (df2 + 2)
    PF.addAll eps [] [.fin .left 0 mode f, .fin .none mode (mode + 1) f, .pinf (mode + 1) f]

/-! ## WeibullDistr (standard_distr.py:660-712) -/

/-- `pdf_at_0` (standard_distr.py:668-673) -/
noncomputable def weibullAt0 (k : ℝ) : Flt := if k < 1 then some ⊤ else if k = 1 then Flt.real 1 else Flt.real 0

/-- `pdf` (standard_distr.py:667, 674-688) -/
noncomputable def weibullPdf (k lmbda x : ℝ) : Flt :=
  let nrm := k / lmbda
  if x < 0 then Flt.real 0 else if x = 0 then weibullAt0 k
  else Flt.real (nrm * exp (log (x / lmbda) * (k - 1) - (x / lmbda) ^ k))

/-- `WeibullDistr(k, lmbda)` (standard_distr.py:661-704) -/
noncomputable def weibull (eps k lmbda : ℝ) : Option (PF ℝ) :=
  if 0 < k ∧ 0 < lmbda then
    let f := realPart (weibullPdf k lmbda)
    if k ≤ 1 then ofFun eps f [.fin 0, .fin k, .pinf] (some [true, false, false]) none
    else
      let mode := lmbda * ((k - 1) / k) ^ (1 / k)
      if k = ⌊k⌋ then ofFun eps f [.fin 0, .fin mode, .pinf] (some [false, false, false]) none
      else ofFun eps f [.fin 0, .fin mode, .pinf] (some [true, false, false]) none
  else none

/-! ## GumbelDistr (standard_distr.py:714-749) -/

/-- `pdf` (standard_distr.py:720-732); `M` is `_MAX_EXP_ARG`, the logarithm of the
largest double (standard_distr.py:13), about 709.78 -/
noncomputable def gumbelPdf (M mu sigma x : ℝ) : ℝ :=
  let t := 1 / sigma * (mu - x)
  if t > M then 0 else 1 / sigma * exp (t - exp t)

/-- `GumbelDistr(mu, sigma)` (standard_distr.py:715-741) -/
noncomputable def gumbel (eps M mu sigma : ℝ) : Option (PF ℝ) :=
  if 0 < sigma then
    let infl1 := mu - sigma * log ((3 + √5) / 2)
    let infl2 := mu + sigma * log ((3 + √5) / 2)
    let f := gumbelPdf M mu sigma
    PF.addAll eps [] [.minf infl1 f, .fin .none infl1 infl2 f, .pinf infl2 f]
  else none

/-! ## FrechetDistr (standard_distr.py:751-792) -/

/-- `pdf` (standard_distr.py:759-771) -/
noncomputable def frechetPdf (alpha s m x : ℝ) : ℝ :=
  let nrm := alpha / s
  let t := (x - m) / s
  if t ≤ 0 then 0 else nrm * exp (-(alpha + 1) * log t - t ^ (-alpha))

/-- `FrechetDistr(alpha, s, m)` (standard_distr.py:752-783) -/
noncomputable def frechet (eps alpha s m : ℝ) : Option (PF ℝ) :=
  if 0 < alpha ∧ 0 < s then
    let a := alpha
    let infl1 := a * (3 * (a + 1) - √(1 + 6 * a + 5 * a ^ 2)) / (a + 1) / (a + 2) / 2
    let infl2 := a * (3 * (a + 1) + √(1 + 6 * a + 5 * a ^ 2)) / (a + 1) / (a + 2) / 2
    let infl1 := m + infl1 ^ (1 / a) * s
    let infl2 := m + infl2 ^ (1 / a) * s
    let f := frechetPdf alpha s m
    PF.addAll eps [] [.fin .none m infl1 f, .fin .none infl1 infl2 f, .pinf infl2 f]
  else none

/-! ## LogLogisticDistr (standard_distr.py:803-861) -/

/-- `np.logaddexp(a, b)` for a real `a` -/
noncomputable def logaddexp (a : ℝ) : Flt → Flt
  | none => none
  | some b => if b = ⊤ then some ⊤ else if b = ⊥ then Flt.real a else Flt.real (log (exp a + exp b.toReal))

/-- `log_pdf` (standard_distr.py:812-818) -/
noncomputable def logLogisticLogPdf (k s x : ℝ) : Flt :=
  let logK := log k
  let logSPowK := k * log s
  let lx := Flt.log x
  (((Flt.real logK).add (Flt.real logSPowK)).add ((Flt.real (k - 1)).mul lx)).add
    ((Flt.real (-2)).mul (logaddexp logSPowK ((Flt.real k).mul lx)))

/-- `pdf` on one point (standard_distr.py:820-827).  On an array with negative entries the assignment raises unless
exactly one value is assigned; the pieces built below only pass nonnegative points. -/
noncomputable def logLogisticPdf (k s x : ℝ) : Flt :=
  if 0 ≤ x then Flt.exp (logLogisticLogPdf k s x) else Flt.real 0

/-- the break points and `lpoles` (standard_distr.py:830-848) -/
noncomputable def logLogisticBreaks (k s : ℝ) : List (Ext ℝ × Bool) :=
  let poleAtZero := decide (k < 1) || decide (k ≠ ⌊k⌋)
  let p1 := 2 * (k ^ 2 - 1)
  let p2 := k * √(3 * (k ^ 2 - 1))
  let p3 := (k + 1) * (k + 2)
  let inner : List (Ext ℝ × Bool) :=
    if 1 < k then
      (if 2 < k then [(.fin (s * ((p1 - p2) / p3) ^ (1 / k)), false)] else []) ++
        [(.fin (s * ((p1 + p2) / p3) ^ (1 / k)), false)]
    else [(.fin 1, false)]
  (.fin 0, poleAtZero) :: inner ++ [(.pinf, false)]

/-- `LogLogisticDistr(k, s)` (standard_distr.py:804-813, 828-851).  (The messages of the two `raise` statements use
undefined names: a `NameError` instead of the `RuntimeError`, an exception in both cases.) -/
noncomputable def logLogistic (eps k s : ℝ) : Option (PF ℝ) :=
  if k ≤ 0 then none else if s ≤ 0 then none
  else
    let bl := logLogisticBreaks k s
    ofFun eps (realPart (logLogisticPdf k s)) (bl.map Prod.fst) (some (bl.map Prod.snd)) none

/-! ## MollifierDistr (standard_distr.py:864-900) -/

/-- the normalising constant (standard_distr.py:871) -/
noncomputable def mollifierConst : ℝ := 2.252283621043581010499781255559830730074

/-- `pdf` (standard_distr.py:871-883) -/
noncomputable def mollifierPdf (epsilon x : ℝ) : ℝ :=
  let nrm := mollifierConst / epsilon
  if |x| ≥ epsilon then 0
  else
    let t := x / epsilon
    nrm * exp (-1 / (1 - t * t))

/-- `MollifierDistr(epsilon)` (standard_distr.py:867-892) -/
noncomputable def mollifier (eps epsilon : ℝ) : Option (PF ℝ) :=
  if 0 < epsilon then
    let infl2 := (3 : ℝ) ^ (-0.25 : ℝ) * epsilon
    let infl1 := -infl2
    let f := mollifierPdf epsilon
    PF.addAll eps [] [.fin .none (-epsilon) infl1 f, .fin .none infl1 infl2 f, .fin .none infl2 epsilon f]
  else none

/-! ## `range()` -/

/-- the values of `range()` of the distributions above (standard_distr.py:170-171, 188-189, 217-218, 245-246, 320-321,
349-350, 408-409, 456-457, 489-490, 522-523, 549-550, 575-576, 606-607, 657-658, 711-712, 748-749, 791-792, 860-861,
899-900), as functions of the parameters in the order of the constructors above -/
inductive Kind where
  | normal (mu sigma : ℝ) | uniform (a b : ℝ) | trapezoidal (a b c d : ℝ) | cauchy (gamma center : ℝ)
  | chiSquare (df : ℝ) | exponential (lmbda : ℝ) | gamma (k theta : ℝ) | beta (alpha beta : ℝ)
  | pareto (alpha xmin : ℝ) | levy (c xmin : ℝ) | laplace (lmbda mu : ℝ) | studentT (df : ℝ) | semicircle (R : ℝ)
  | fDistr (df1 df2 : ℝ) | weibull (k lmbda : ℝ) | gumbel (mu sigma : ℝ) | frechet (alpha s m : ℝ)
  | logLogistic (k s : ℝ) | mollifier (epsilon : ℝ)

/-- `range()` -/
noncomputable def Kind.range : Kind → EReal × EReal
  | .normal _ _ => (⊥, ⊤)
  | .uniform a b => (a, b)
  | .trapezoidal a _ _ d => (a, d)
  | .cauchy _ _ => (⊥, ⊤)
  | .chiSquare _ => (0, ⊤)
  | .exponential _ => (0, ⊤)
  | .gamma _ _ => (0, ⊤)
  | .beta _ _ => (0, 1)
  | .pareto _ xmin => (xmin, ⊤)
  | .levy _ xmin => (xmin, ⊤)
  | .laplace _ _ => (⊥, ⊤)
  | .studentT _ => (⊥, ⊤)
  | .semicircle R => ((-R : ℝ), R)
  | .fDistr _ _ => (0, ⊤)
  | .weibull _ _ => (0, ⊤)
  | .gumbel _ _ => (0, ⊤)
  | .frechet _ _ _ => (0, ⊤)
  | .logLogistic _ _ => (0, ⊤)
  | .mollifier e => ((-e : ℝ), e)

/-- the machine constants and library functions used -/
structure Env where
  eps : ℝ
  mpe : ℝ
  M : ℝ
  lg : ℝ → ℝ

/-- the density built for each distribution -/
noncomputable def Kind.build (E : Env) : Kind → Option (PF ℝ)
  | .normal mu sigma => Standard.normal E.eps mu sigma
  | .uniform a b => Standard.uniform E.eps a b
  | .trapezoidal a b c d => Standard.trapezoidal E.eps a b c d
  | .cauchy g c => Standard.cauchy E.eps g c
  | .chiSquare df => Standard.chiSquare E.eps E.lg df
  | .exponential l => Standard.exponential E.eps l
  | .gamma k theta => Standard.gamma E.eps E.lg k theta
  | .beta a b => Standard.beta E.eps E.mpe E.lg a b
  | .pareto a x => Standard.pareto E.eps a x
  | .levy c x => Standard.levy E.eps c x
  | .laplace l mu => Standard.laplace E.eps l mu
  | .studentT df => Standard.studentT E.eps E.lg df
  | .semicircle R => Standard.semicircle E.eps R
  | .fDistr a b => Standard.fDistr E.eps E.lg a b
  | .weibull k l => Standard.weibull E.eps k l
  | .gumbel mu s => Standard.gumbel E.eps E.M mu s
  | .frechet a s m => Standard.frechet E.eps a s m
  | .logLogistic k s => Standard.logLogistic E.eps k s
  | .mollifier e => Standard.mollifier E.eps e

end Pacal.Standard
