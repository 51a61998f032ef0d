import Verif.Push.Model
import Mathlib.Analysis.SpecialFunctions.Trigonometric.Inverse
import Mathlib.Analysis.SpecialFunctions.Trigonometric.Arctan

/-!
Model of the built-in functions of a random variable (`/repo/pacal/distr.py`): function, inverse and derivative of the
inverse (scalar versions; the array versions compute the same values elementwise).  Functions are given on real numbers
and, for the ends of pieces, on `Ext ℝ` (what numpy returns for infinite arguments, and `log 0 = -inf`).
-/

namespace Pacal
open Real

/-- a function of finite numbers with its values at `-inf` and `+inf` -/
noncomputable def extMap (g : ℝ → ℝ) (vlo vhi : Ext ℝ) : Ext ℝ → Ext ℝ
  | (none : Ext ℝ) => vlo
  | (some none : Ext ℝ) => vhi
  | (some (some x) : Ext ℝ) => .fin (g x)

/-- `ExpDistr.f` on end points (distr.py:615-616) -/
noncomputable def expExt : Ext ℝ → Ext ℝ := extMap Real.exp (.fin 0) .pinf
/-- `ExpDistr.f_inv` (distr.py:617-618) -/
noncomputable def expInv (x : ℝ) : ℝ := Real.log x
/-- `ExpDistr.f_inv_deriv` (distr.py:619-620) -/
noncomputable def expInvDeriv (x : ℝ) : ℝ := 1 / |x|

/-- `LogDistr.f` on end points (distr.py:637-638): `log 0 = -inf`.  Negative arguments (nan in numpy) do not occur; the
model gives -inf. -/
noncomputable def logExt : Ext ℝ → Ext ℝ
  | (none : Ext ℝ) => .ninf
  | (some none : Ext ℝ) => .pinf
  | (some (some x) : Ext ℝ) => if x ≤ 0 then .ninf else .fin (Real.log x)
/-- `LogDistr.f_inv` (distr.py:639-640) -/
noncomputable def logInv (x : ℝ) : ℝ := Real.exp x
/-- `LogDistr.f_inv_deriv` (distr.py:641-642) -/
noncomputable def logInvDeriv (x : ℝ) : ℝ := Real.exp x

/-- `AtanDistr.f` on end points (distr.py:667-668) -/
noncomputable def atanExt : Ext ℝ → Ext ℝ := extMap arctan (.fin (-(π / 2))) (.fin (π / 2))
/-- `AtanDistr.f_inv` (distr.py:669-679) -/
noncomputable def atanInv (x : ℝ) : ℝ := if x ≤ -π / 2 ∨ x ≥ π / 2 then 0 else tan x
/-- `AtanDistr.f_inv_deriv` (distr.py:680-690) -/
noncomputable def atanInvDeriv (x : ℝ) : ℝ := if x ≤ -π / 2 ∨ x ≥ π / 2 then 0 else 1 + tan x ^ 2

/-- `TanhDistr.f` on end points (distr.py:705-706) -/
noncomputable def tanhExt : Ext ℝ → Ext ℝ := extMap tanh (.fin (-1)) (.fin 1)
/-- `TanhDistr.f_inv` (distr.py:707-717) -/
noncomputable def tanhInv (x : ℝ) : ℝ := if x ≤ -1 ∨ x ≥ 1 then 0 else 0.5 * Real.log ((1 + x) / (1 - x))
/-- `TanhDistr.f_inv_deriv` (distr.py:718-728) -/
noncomputable def tanhInvDeriv (x : ℝ) : ℝ := if x ≤ -1 ∨ x ≥ 1 then 0 else 1 / (1 - x ^ 2)

/-- `SigmoidDistr.f` (distr.py:744-757) -/
noncomputable def sigmoidFn (x : ℝ) : ℝ :=
  if x > 0 then 1 / (1 + Real.exp (-x)) else Real.exp x / (Real.exp x + 1)
/-- … on end points: `1/(1 + exp(-inf)) = 1`, `exp(-inf)/(exp(-inf) + 1) = 0` -/
noncomputable def sigmoidExt : Ext ℝ → Ext ℝ := extMap sigmoidFn (.fin 0) (.fin 1)
/-- `SigmoidDistr.f_inv` (distr.py:758-768), with the guard of the code (-1, not 0) -/
noncomputable def sigmoidInv (x : ℝ) : ℝ := if x ≤ -1 ∨ x ≥ 1 then 0 else Real.log (x / (1 - x))
/-- `SigmoidDistr.f_inv_deriv` (distr.py:769-779) -/
noncomputable def sigmoidInvDeriv (x : ℝ) : ℝ := if x ≤ -1 ∨ x ≥ 1 then 0 else 1 / (x * (1 - x))

/-- `TanDistr.f` on end points (distr.py:1052-1053); infinite arguments (nan in numpy) are left as they are -/
noncomputable def tanExt : Ext ℝ → Ext ℝ := extMap tan .ninf .pinf
/-- `TanDistr.f_inv` (distr.py:1054-1055) -/
noncomputable def tanInv (x : ℝ) : ℝ := arctan x
/-- `TanDistr.f_inv_deriv` (distr.py:1056-1058) -/
noncomputable def tanInvDeriv (x : ℝ) : ℝ := 1 / (1 + x ^ 2)

/-- `_twopi_m_arccos` (distr.py:1025-1026) -/
noncomputable def twopiMArccos (x : ℝ) : ℝ := 2 * π - arccos x
/-- `_arccos_der1` (distr.py:1027-1028) -/
noncomputable def arccosDer1 (x : ℝ) : ℝ := -(1 - x ^ 2) ^ (-0.5 : ℝ)
/-- `_arccos_der2` (distr.py:1029-1030) -/
noncomputable def arccosDer2 (x : ℝ) : ℝ := (1 - x ^ 2) ^ (-0.5 : ℝ)
/-- the branches of `CosDistr` (distr.py:1033-1039) -/
noncomputable def cosBranches : List Branch :=
  [⟨.fin 0, .fin π, extMap cos .ninf .pinf, arccos, arccosDer1⟩,
   ⟨.fin π, .fin (2 * π), extMap cos .ninf .pinf, twopiMArccos, arccosDer2⟩]

/-- `_pi_m_arcsin` (distr.py:1002-1003), as written in the code -/
noncomputable def piMArcsin (x : ℝ) : ℝ := 2 * π - arccos x
/-- `_arcsin_der1` (distr.py:1004-1005) -/
noncomputable def arcsinDer1 (x : ℝ) : ℝ := (1 - x ^ 2) ^ (-0.5 : ℝ)
/-- the branches of `SinDistr` (distr.py:1010-1016) -/
noncomputable def sinBranches : List Branch :=
  [⟨.fin (-π / 2), .fin (π / 2), extMap sin .ninf .pinf, arcsin, arcsinDer1⟩,
   ⟨.fin (π / 2), .fin (3 * π / 2), extMap sin .ninf .pinf, piMArcsin, arcsinDer1⟩]

/-- the branches of `Sq2Distr` (distr.py:992-997), as written in the code -/
noncomputable def sq2Branches : List Branch :=
  [⟨.ninf, .fin 0, extMap (fun x => x ^ 2) .pinf .pinf, fun x => x ^ (0.5 : ℝ), fun x => 0.5 * x ^ (-0.5 : ℝ)⟩,
   ⟨.fin 0, .pinf, extMap (fun x => x ^ 2) .pinf .pinf, fun x => -x ^ (0.5 : ℝ), fun x => -0.5 * x ^ (-0.5 : ℝ)⟩]

/-- `ExpDistr(d)` (distr.py:610-622, 590-591): `pole_at_zero = True` -/
noncomputable def expDistr (eps : ℝ) (mass : Seg ℝ → ℝ) (l : PF ℝ) : Option (PF ℝ) :=
  l.copyComposition eps expExt expInv expInvDeriv true mass

/-- `LogDistr(d)` (distr.py:631-644): `ValueError` unless the distribution is nonnegative.  `nonneg` is the answer of
`d.is_nonneg()` (see the range model in `Verif.Graph`). -/
noncomputable def logDistr (eps : ℝ) (mass : Seg ℝ → ℝ) (nonneg : Bool) (l : PF ℝ) : Option (PF ℝ) :=
  if nonneg then l.copyLogComposition eps logExt logInv logInvDeriv mass else none

/-- `AtanDistr(d)` (distr.py:662-690) -/
noncomputable def atanDistr (eps : ℝ) (mass : Seg ℝ → ℝ) (l : PF ℝ) : Option (PF ℝ) :=
  l.copyComposition eps atanExt atanInv atanInvDeriv false mass

/-- `TanhDistr(d)` (distr.py:700-728) -/
noncomputable def tanhDistr (eps : ℝ) (mass : Seg ℝ → ℝ) (l : PF ℝ) : Option (PF ℝ) :=
  l.copyComposition eps tanhExt tanhInv tanhInvDeriv false mass

/-- `SigmoidDistr(d)` (distr.py:739-779) -/
noncomputable def sigmoidDistr (eps : ℝ) (mass : Seg ℝ → ℝ) (l : PF ℝ) : Option (PF ℝ) :=
  l.copyComposition eps sigmoidExt sigmoidInv sigmoidInvDeriv false mass

/-- `TanDistr(d)` (distr.py:1048-1058) -/
noncomputable def tanDistr (eps : ℝ) (mass : Seg ℝ → ℝ) (l : PF ℝ) : Option (PF ℝ) :=
  l.copyComposition eps tanExt tanInv tanInvDeriv false mass

/-- `CosDistr(d)` (distr.py:1031-1041, 987-988) -/
noncomputable def cosDistr (eps : ℝ) (mass : Seg ℝ → ℝ) (l : PF ℝ) : Option (PF ℝ) :=
  l.copyCompositionNoninjective eps false mass cosBranches []

/-- `SinDistr(d)` (distr.py:1008-1018, 987-988) -/
noncomputable def sinDistr (eps : ℝ) (mass : Seg ℝ → ℝ) (l : PF ℝ) : Option (PF ℝ) :=
  l.copyCompositionNoninjective eps false mass sinBranches []

/-- what `X ** d` returns for a number `d` (distr.py:499-509): a number or a distribution -/
inductive PowResult
  | number (c : ℝ)
  | distr (l : PF ℝ)

/-- `X ** d` for a number `d` (distr.py:494-511) -/
noncomputable def powDistr (eps : ℝ) (mass : Seg ℝ → ℝ) (nonneg : Bool) (l : PF ℝ) (d : ℝ) : Option PowResult :=
  if d = 0 then some (.number 1)
  else if d = 1 then some (.distr l)
  else if d = -1 then (l.copyProbInverse eps false).map .distr
  else if d = 2 then (l.copySquareComposition eps).map .distr
  else
    (logDistr eps mass nonneg l).bind fun a =>
    (shiftedScaled eps a 0 d).bind fun b =>
    (expDistr eps mass b).map .distr

/-- `x ** X` for a number `x` (distr.py:512-522); `none` also for the `ValueError` -/
noncomputable def rpowDistr (eps : ℝ) (mass : Seg ℝ → ℝ) (l : PF ℝ) (x : ℝ) : Option PowResult :=
  if x = 0 then some (.number 0)
  else if x = 1 then some (.number 1)
  else if x < 0 then none
  else (shiftedScaled eps l 0 (Real.log x)).bind fun b => (expDistr eps mass b).map .distr

/-- `sqrt(X)` (distr.py:942-946) -/
noncomputable def sqrtDistr (eps : ℝ) (mass : Seg ℝ → ℝ) (nonneg : Bool) (l : PF ℝ) : Option PowResult :=
  if nonneg then powDistr eps mass nonneg l 0.5 else none

end Pacal
