import Verif.Identity.Model
import Verif.Conv.Spec
import Verif.Conv.DivLemmas
import Verif.Law.Integrals
import Verif.Standard.Spec
import Verif.Standard.LemRange
import Mathlib.Probability.Distributions.Gaussian.Real
import Mathlib.Probability.Distributions.Cauchy
import Mathlib.Probability.Distributions.Exponential
import Mathlib.Probability.Distributions.Pareto

/-!
Independent specification: the textbook law of each standard distribution, and the law of an expression of independent
random variables.
-/

namespace Pacal.Identity
open MeasureTheory ProbabilityTheory Standard

/-- the textbook law of a standard distribution -/
noncomputable def kindLaw : Kind → Measure ℝ
  | .normal mu sigma => gaussianReal mu (sigma ^ 2).toNNReal
  | .uniform a b => ProbabilityTheory.cond volume (Set.Icc a b)
  | .trapezoidal a b c d => Textbook.law fun x => 2 / (d + c - (b + a)) * Textbook.trapezoid a b c d x
  | .cauchy g center => cauchyMeasure center g.toNNReal
  | .chiSquare df => gammaMeasure (df / 2) (1 / 2)
  | .exponential lmbda => expMeasure lmbda
  | .gamma k theta => gammaMeasure k (1 / theta)
  | .beta a b => betaMeasure a b
  | .pareto alpha xmin => paretoMeasure xmin alpha
  | .levy c xmin => Textbook.law (Textbook.levy c xmin)
  | .laplace lmbda mu => Textbook.law (Textbook.laplace lmbda mu)
  | .studentT df => Textbook.law (Textbook.studentT df)
  | .semicircle R => Textbook.law (Textbook.semicircle R)
  | .fDistr df1 df2 => Textbook.law (Textbook.fisher df1 df2)
  | .weibull k lmbda => Textbook.law (Textbook.weibull k lmbda)
  | .gumbel mu sigma => Textbook.law (Textbook.gumbel mu sigma)
  | .frechet alpha s m => Textbook.law (Textbook.frechet alpha s m)
  | .logLogistic k s => Textbook.law (Textbook.logLogistic k s)
  | .mollifier epsilon => Textbook.law fun x => Textbook.bump (x / epsilon) / ∫ y, Textbook.bump (y / epsilon)

/-- the distributions whose density is the textbook one: all but the Gumbel distribution (cut off far on the left,
`C46_violated_gumbel`) and the mollifier (whose constant is rounded) -/
def Exact : Kind → Prop
  | .gumbel _ _ => False
  | .mollifier _ => False
  | _ => True

/-- the function computed by an operation with one argument -/
noncomputable def stepFn : Step → ℝ → ℝ
  | .shiftScale a b => fun x => x * b + a
  | .abs => fun x => |x|
  | .square => fun x => x ^ 2
  | .inv => fun x => x⁻¹
  | .exp => Real.exp
  | .log => Real.log
  | .atan => Real.arctan
  | .pow d => fun x => x ^ d

/-- the law of an expression, its variables being independent -/
noncomputable def exprLaw : Expr → Measure ℝ
  | .dist k => kindLaw k
  | .discrete t => (t.map fun p => ENNReal.ofReal p.2 • Measure.dirac p.1).sum
  | .step s e => (exprLaw e).map (stepFn s)
  | .add a b => opLaw (· + ·) (exprLaw a) (exprLaw b)
  | .sub a b => opLaw (· - ·) (exprLaw a) (exprLaw b)
  | .mul a b => opLaw (· * ·) (exprLaw a) (exprLaw b)
  | .div a b => opLaw (· / ·) (exprLaw a) (exprLaw b)
  | .min a b => opLaw Min.min (exprLaw a) (exprLaw b)
  | .max a b => opLaw Max.max (exprLaw a) (exprLaw b)

/-! ## what is assumed of the arguments -/

/-- exact library functions, nonnegative tolerances -/
structure MachineOK (M : Machine) : Prop where
  eps : 0 ≤ M.env.eps
  same : M.par.eps = M.env.eps
  brk : 0 ≤ M.par.brkEps
  lg : ∀ x, 0 < x → M.env.lg x = Real.log (Real.Gamma x)
  quad : Pacal.ExactQ M.par.q M.par.qp

/-- the arguments for which an operation with one argument is defined; `pos` says that no value is negative -/
def StepOK (pos : Prop) : Step → Prop
  | .shiftScale _ b => b ≠ 0
  | .log => pos
  | .pow d => d ≠ 0 ∧ (d = 1 ∨ d = -1 ∨ d = 2 ∨ pos)
  | _ => True

/-- no piece starts below 0 -/
def PosPF (l : PF ℝ) : Prop := ∀ s ∈ l, (Ext.fin 0 : Ext ℝ) ≤ s.lo

/-- the distributions of nonnegative variables -/
def KindPos : Kind → Prop
  | .uniform a _ => 0 ≤ a
  | .trapezoidal a _ _ _ => 0 ≤ a
  | .levy _ xmin => 0 ≤ xmin
  | .frechet _ _ m => 0 ≤ m
  | .chiSquare _ | .exponential _ | .gamma _ _ | .beta _ _ | .pareto _ _ | .fDistr _ _ | .weibull _ _ | .logLogistic _ _ => True
  | _ => False

/-- no atoms -/
def ContPF (l : PF ℝ) : Prop := ∀ s ∈ l, s.isDirac = false

/-- a table of probabilities of different points, more than `δ` apart -/
def TableOK (δ : ℝ) (t : List (ℝ × ℝ)) : Prop :=
  (∀ p ∈ t, 0 ≤ p.2) ∧ (t.map Prod.snd).sum = 1 ∧ t.Pairwise fun a b => δ < |a.1 - b.1|

/-- The expressions for which the arithmetic is correct: the parameters of the distributions are valid; functions are applied
to arguments without atoms for which they are defined; break points which the arithmetic computes for a sum, product or quotient
coincide or differ by more than the tolerance; summands have no gap; a factor is not the constant 0; the divisor has
no atoms. -/
def ExprOK (M : Machine) : Expr → Prop
  | .dist k => k.Valid ∧ Exact k
  | .discrete t => TableOK M.env.eps t
  | .step s e => ExprOK M e ∧ ∀ l, e.run M = some l → ContPF l ∧ StepOK (PosPF l) s
  | .add a b => ExprOK M a ∧ ExprOK M b ∧ ∀ f g, a.run M = some f → b.run M = some g →
      f.NoHole ∧ g.NoHole ∧ Apart (· + ·) (Max.max M.par.brkEps M.par.eps) f g
  | .sub a b => ExprOK M a ∧ ExprOK M b ∧ ∀ f g, a.run M = some f → b.run M = some g →
      f.NoHole ∧ g.NoHoleRight ∧ Apart (· - ·) (Max.max M.par.brkEps M.par.eps) f g
  | .mul a b => ExprOK M a ∧ ExprOK M b ∧ exprLaw a {0} ≠ 1 ∧ exprLaw b {0} ≠ 1 ∧
      ∀ f g, a.run M = some f → b.run M = some g → ApartMul M.par.eps f g
  | .div a b => ExprOK M a ∧ ExprOK M b ∧ ∀ f g, a.run M = some f → b.run M = some g →
      ContPF g ∧ (∀ m, Seg.dirac 0 m ∉ f) ∧ ApartDiv M.par.eps f g
  | .min a b => ExprOK M a ∧ ExprOK M b ∧ ∀ f g, a.run M = some f → b.run M = some g → PF.AtomsApart M.par.eps f g
  | .max a b => ExprOK M a ∧ ExprOK M b ∧ ∀ f g, a.run M = some f → b.run M = some g → PF.AtomsApart M.par.eps f g

/-! ## unlimited precision -/

/-- all comparisons are exact -/
structure Unlimited (M : Machine) : Prop extends MachineOK M where
  eps0 : M.env.eps = 0
  brk0 : M.par.brkEps = 0

/-- expressions without atoms -/
def Cont : Expr → Prop
  | .dist _ => True
  | .discrete _ => False
  | .step _ e => Cont e
  | .add a b | .sub a b => Cont a ∨ Cont b
  | .mul a b | .min a b | .max a b => Cont a ∧ Cont b
  | .div _ b => Cont b

/-- expressions which are not the constant 0 -/
def NotZero : Expr → Prop
  | .discrete t => ∃ p ∈ t, p.1 ≠ 0 ∧ 0 < p.2
  | e => Cont e

/-- expressions which are never 0 -/
def ZeroFree : Expr → Prop
  | .discrete t => ∀ p ∈ t, p.1 ≠ 0
  | e => Cont e

/-- a function of one argument is nonnegative; `nonneg`: the argument is -/
def StepNonneg (nonneg : Prop) : Step → Prop
  | .shiftScale a b => 0 ≤ a ∧ 0 < b ∧ nonneg
  | .abs | .square | .exp => True
  | .inv | .atan => nonneg
  | .log => False
  | .pow d => d = 2 ∨ nonneg

/-- nonnegative expressions; `neg0` says that zeros among the ends of the pieces of a divisor are stored as `-0.0`
(the division of the ends then gives `-inf`) -/
def Nonneg (neg0 : Bool) : Expr → Prop
  | .dist k => KindPos k
  | .discrete t => ∀ p ∈ t, 0 ≤ p.1
  | .step s e => StepNonneg (Nonneg neg0 e) s
  | .add a b | .mul a b | .min a b => Nonneg neg0 a ∧ Nonneg neg0 b
  | .div a b => neg0 = false ∧ Nonneg neg0 a ∧ Nonneg neg0 b
  | .max a b => Nonneg neg0 a ∨ Nonneg neg0 b
  | .sub _ _ => False

/-- a function of one argument keeps intervals; the reciprocal does if 0 is not inside -/
def StepGapless (nonneg gapless : Prop) : Step → Prop
  | .inv => gapless ∧ nonneg
  | .pow d => gapless ∧ (d = -1 → nonneg)
  | _ => gapless

/-- expressions without gaps: their values fill an interval, or they are given as a table (the code closes the gaps of a table with
pieces of density 0) -/
def Gapless (neg0 : Bool) : Expr → Prop
  | .step s e => StepGapless (Nonneg neg0 e) (Gapless neg0 e) s
  | .dist _ | .discrete _ => True
  | e => Cont e

/-- The expressions for which the arithmetic with exact comparisons is correct, given by their form: the parameters of the
distributions are valid, functions are applied where they are defined and to arguments without atoms, summands have no gaps, a factor is not the constant 0, the divisor has no atoms and the dividend no atom at 0. -/
def Defined (neg0 : Bool) : Expr → Prop
  | .dist k => k.Valid ∧ Exact k
  | .discrete t => TableOK 0 t
  | .step s e => Defined neg0 e ∧ Cont e ∧ StepOK (Nonneg neg0 e) s
  | .add a b | .sub a b => Defined neg0 a ∧ Defined neg0 b ∧ Gapless neg0 a ∧ Gapless neg0 b
  | .mul a b => Defined neg0 a ∧ Defined neg0 b ∧ NotZero a ∧ NotZero b
  | .div a b => Defined neg0 a ∧ Defined neg0 b ∧ ZeroFree a ∧ Cont b
  | .min a b | .max a b => Defined neg0 a ∧ Defined neg0 b

end Pacal.Identity
