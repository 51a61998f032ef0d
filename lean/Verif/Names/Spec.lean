import Verif.Names.Model
import Mathlib.Data.Sign.Basic
import Mathlib.Analysis.SpecialFunctions.Trigonometric.Arctan
import Mathlib.Analysis.SpecialFunctions.Log.Basic

/-! What an expression means, and what a name means when it is read with the usual precedences. -/

namespace Pacal.Names

/-- the values of the variables -/
abbrev Env := ℕ → ℝ

/-- the function that a name in a call stands for -/
noncomputable def Fn.value : Fn → ℝ → ℝ
  | .sqr, x => x ^ 2
  | .sign, x => SignType.sign x
  | .exp, x => Real.exp x
  | .log, x => Real.log x
  | .atan, x => Real.arctan x
  | .tanh, x => Real.tanh x
  | .tan, x => Real.tan x
  | .sin, x => Real.sin x
  | .cos, x => Real.cos x

/-- the function that is applied to a distribution -/
noncomputable def Func.value : Func → ℝ → ℝ
  | .exp, x => Real.exp x
  | .log, x => Real.log x
  | .atan, x => Real.arctan x
  | .tanh, x => Real.tanh x
  | .sigmoid, x => 1 / (1 + Real.exp (-x))
  | .tan, x => Real.tan x
  | .sin, x => Real.sin x
  | .cos, x => Real.cos x

/-- the value of an expression -/
noncomputable def Obj.value (E : Env) : Obj → ℝ
  | .leaf i => E i
  | .affine d scale shift => d.value E * scale + shift
  | .func f d => f.value (d.value E)
  | .inv d => 1 / d.value E
  | .abs d => |d.value E|
  | .sign d => SignType.sign (d.value E)
  | .square d => d.value E ^ 2
  | .sum d₁ d₂ => d₁.value E + d₂.value E
  | .sub d₁ d₂ => d₁.value E - d₂.value E
  | .mul d₁ d₂ => d₁.value E * d₂.value E
  | .div d₁ d₂ => d₁.value E / d₂.value E
  | .min d₁ d₂ => Min.min (d₁.value E) (d₂.value E)
  | .max d₁ d₂ => Max.max (d₁.value E) (d₂.value E)

/-- the levels of the grammar of arithmetic: sums of products of signed operands -/
inductive Level
  | expr | term | factor | primary
  deriving DecidableEq

/-- `Reads E l t v`: the tokens `t` are an expression (a term, a factor, a primary) with the value `v`.  Multiplication and
division bind stronger than addition and subtraction, signs stronger still, and operators of the same strength are done
from left to right. -/
inductive Reads (E : Env) : Level → List Tok → ℝ → Prop
  | num {x : ℝ} (h : 0 ≤ x) : Reads E .primary [.num x] x
  | var (i : ℕ) : Reads E .primary [.var i] (E i)
  | paren {t v} : Reads E .expr t v → Reads E .primary (.lpar :: t ++ [.rpar]) v
  | call (f : Fn) {t v} : Reads E .expr t v → Reads E .primary (.fn f :: .lpar :: t ++ [.rpar]) (f.value v)
  | min {t v u w} : Reads E .expr t v → Reads E .expr u w →
      Reads E .primary (.min :: .lpar :: (t ++ .comma :: u) ++ [.rpar]) (Min.min v w)
  | max {t v u w} : Reads E .expr t v → Reads E .expr u w →
      Reads E .primary (.max :: .lpar :: (t ++ .comma :: u) ++ [.rpar]) (Max.max v w)
  | abs {t v} : Reads E .expr t v → Reads E .primary (.bar :: t ++ [.bar]) |v|
  | primary {t v} : Reads E .primary t v → Reads E .factor t v
  | neg {t v} : Reads E .factor t v → Reads E .factor (.minus :: t) (-v)
  | pos {t v} : Reads E .factor t v → Reads E .factor (.plus :: t) v
  | factor {t v} : Reads E .factor t v → Reads E .term t v
  | mul {t v u w} : Reads E .term t v → Reads E .factor u w → Reads E .term (t ++ .star :: u) (v * w)
  | div {t v u w} : Reads E .term t v → Reads E .factor u w → Reads E .term (t ++ .slash :: u) (v / w)
  | term {t v} : Reads E .term t v → Reads E .expr t v
  | add {t v u w} : Reads E .expr t v → Reads E .term u w → Reads E .expr (t ++ .plus :: u) (v + w)
  | sub {t v u w} : Reads E .expr t v → Reads E .term u w → Reads E .expr (t ++ .minus :: u) (v - w)

/-- the name of the object, standing alone, is a sum or a difference, and it is not put in parentheses on the right of a minus
sign -/
def Obj.Loose : Obj → Prop
  | .sub _ _ => True
  | .affine d scale shift => shift ≠ 0 ∨ (scale = 1 ∧ (d.Loose ∨ d.isSum))
  | _ => False

/-- no right operand of a difference is itself a difference or has a constant added, and the sigmoid function is not used -/
def Obj.Clear : Obj → Prop
  | .leaf _ => True
  | .affine d _ _ => d.Clear
  | .func f d => f ≠ .sigmoid ∧ d.Clear
  | .inv d => d.Clear
  | .abs d => d.Clear
  | .sign d => d.Clear
  | .square d => d.Clear
  | .sum d₁ d₂ => d₁.Clear ∧ d₂.Clear
  | .sub d₁ d₂ => d₁.Clear ∧ d₂.Clear ∧ ¬ d₂.Loose
  | .mul d₁ d₂ => d₁.Clear ∧ d₂.Clear
  | .div d₁ d₂ => d₁.Clear ∧ d₂.Clear
  | .min d₁ d₂ => d₁.Clear ∧ d₂.Clear
  | .max d₁ d₂ => d₁.Clear ∧ d₂.Clear

end Pacal.Names
