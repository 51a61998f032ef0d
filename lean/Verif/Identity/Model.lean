import Verif.Standard.Model
import Verif.Push.Builtin
import Verif.Conv.Sub
import Verif.Conv.ProdModel
import Verif.Conv.DivModel
import Verif.Conv.MinMaxModel
import Verif.Distr.Discrete

/-!
Model of evaluating an arithmetic expression of independent random variables (`/repo/pacal/distr.py`: the operators of `Distr`,
lines 409-524, the functions `exp`, `log`, `atan`, 623-698, and the classes of binary operations, 1124-1186): every node builds
its density from the densities of its arguments.

* The densities of the leaves are those of the standard distributions (`Verif.Standard.Model`) and of discrete distributions
  (`Verif.Distr.Discrete`), constants among them.
* Densities are not interpolated (as with `params.interpolation` replaced by exact functions; the interpolation is the subject of
  C39-C41 and C64).  Arguments are independent: a variable occurring twice is not modelled here.
-/

namespace Pacal.Identity
open Standard

/-- the machine constants and library functions used by the arithmetic -/
structure Machine where
  env : Env
  par : Conv.Par
  mass : Seg ℝ → ℝ
  pole : ℝ → ℝ → Pole
  neg0 : Bool
  arr : Bool

/-- operations with one distribution as argument -/
inductive Step where
  | shiftScale (shift scale : ℝ) | abs | square | inv | exp | log | atan | pow (d : ℝ)

/-- expressions of independent random variables; `discrete t`: the distribution with the points and probabilities listed in `t`
(`DiscreteDistr`, distr.py:1066-1089), `ConstDistr(c)` being `discrete [(c, 1)]` (distr.py:1225-1228) -/
inductive Expr where
  | dist (k : Kind) | discrete (t : List (ℝ × ℝ)) | step (s : Step) (e : Expr) | add (e₁ e₂ : Expr) | sub (e₁ e₂ : Expr) | mul (e₁ e₂ : Expr)
  | div (e₁ e₂ : Expr) | min (e₁ e₂ : Expr) | max (e₁ e₂ : Expr)

/-- the distribution in the result of `X ** d` (distr.py:494-511); a number is not a distribution -/
noncomputable def powPF : Option PowResult → Option (PF ℝ)
  | some (.distr r) => some r
  | _ => none

open Classical in
/-- `is_nonneg()` (distr.py:214-216, segments.py:1153-1161): no piece starts below 0 and no atom is at or below 0 -/
noncomputable def isNonneg (l : PF ℝ) : Bool :=
  l.all fun s => match s with
    | .dirac a _ => decide (0 < a)
    | s => decide ((Ext.fin 0 : Ext ℝ) ≤ s.lo)

/-- the density built by an operation with one argument: `ShiftedScaledDistr` (distr.py:593-602), `AbsDistr` (900-901),
`SquareDistr` (925-926), `InvDistr` (837-838), `ExpDistr` (610-622), `LogDistr` (631-644), `AtanDistr` (662-690), `**` (494-511) -/
noncomputable def Step.run (M : Machine) (l : PF ℝ) : Step → Option (PF ℝ)
  | .shiftScale a b => shiftedScaled M.env.eps l a b
  | .abs => l.copyAbsComposition M.env.eps
  | .square => l.copySquareComposition M.env.eps
  | .inv => l.copyProbInverse M.env.eps false
  | .exp => expDistr M.env.eps M.mass l
  | .log => logDistr M.env.eps M.mass (isNonneg l) l
  | .atan => atanDistr M.env.eps M.mass l
  | .pow d => powPF (powDistr M.env.eps M.mass (isNonneg l) l d)

/-- the density of an expression; the arguments are evaluated first -/
noncomputable def Expr.run (M : Machine) : Expr → Option (PF ℝ)
  | .dist k => k.build M.env
  | .discrete t => discretePF M.env.eps t
  | .step s e => (e.run M).bind fun l => s.run M l
  | .add a b => (a.run M).bind fun f => (b.run M).bind fun g => Conv.conv M.par M.pole f g
  | .sub a b => (a.run M).bind fun f => (b.run M).bind fun g => Conv.sub M.par M.pole f g
  | .mul a b => (a.run M).bind fun f => (b.run M).bind fun g => Conv.convprod M.par M.pole f g
  | .div a b => (a.run M).bind fun f => (b.run M).bind fun g => Conv.convdiv M.par M.neg0 M.arr M.pole f g
  | .min a b => (a.run M).bind fun f => (b.run M).bind fun g => Conv.convmin M.par f g
  | .max a b => (a.run M).bind fun f => (b.run M).bind fun g => Conv.convmax M.par f g

end Pacal.Identity
