import Verif.Sample.LemTree
import Verif.Identity.Spec

/-! Sampled and computed expressions -/

namespace Pacal.Sample
open MeasureTheory Identity

/-- the sampled function for an operation on one distribution -/
inductive Reads1 : Step → Op1 → Prop
  | shift (a b : ℝ) : Reads1 (.shiftScale a b) (.shifted a b)
  | abs : Reads1 .abs .abs
  | square : Reads1 .square .square
  | inv : Reads1 .inv .inv
  | exp : Reads1 .exp .exp
  | log : Reads1 .log .log
  | atan : Reads1 .atan .atan

/-- `Reads μ e e'`: the sampled expression `e'` is the expression `e` of distributions, with variables of the laws `μ i` in the places of the
distributions -/
inductive Reads (μ : ℕ → Measure ℝ) : Identity.Expr → Expr → Prop
  | dist (k : Standard.Kind) (i : ℕ) : μ i = exprLaw (.dist k) → Reads μ (.dist k) (.var i)
  | discrete (t : List (ℝ × ℝ)) (i : ℕ) : μ i = exprLaw (.discrete t) → Reads μ (.discrete t) (.var i)
  | step {s o e e'} : Reads1 s o → Reads μ e e' → Reads μ (.step s e) (.one o e')
  | add {a b a' b'} : Reads μ a a' → Reads μ b b' → Reads μ (.add a b) (.two .sum a' b')
  | sub {a b a' b'} : Reads μ a a' → Reads μ b b' → Reads μ (.sub a b) (.two .sub a' b')
  | mul {a b a' b'} : Reads μ a a' → Reads μ b b' → Reads μ (.mul a b) (.two .mul a' b')
  | div {a b a' b'} : Reads μ a a' → Reads μ b b' → Reads μ (.div a b) (.two .div a' b')
  | min {a b a' b'} : Reads μ a a' → Reads μ b b' → Reads μ (.min a b) (.two .min a' b')
  | max {a b a' b'} : Reads μ a a' → Reads μ b b' → Reads μ (.max a b) (.two .max a' b')

theorem reads_law {μ : ℕ → Measure ℝ} {e : Identity.Expr} {e' : Expr} (h : Reads μ e e') : e'.law μ = exprLaw e := by
  induction h with
  | dist k i h => exact h
  | discrete t i h => exact h
  | step hs _ ih =>
    rw [Expr.law, exprLaw, ih]
    congr 1
    cases hs with
    | shift a b => funext x; simp [Op1.fn, stepFn, mul_comm]
    | _ => rfl
  | _ _ _ ih ih' => rw [Expr.law, exprLaw, ih, ih']; rfl

end Pacal.Sample
