import Verif.Identity.SpecTable

/-!
Independent specification: the rules for transforming expressions of independent variables without changing their distribution.
Every variable occurs once, so rules like `x * (y + z) = x * y + x * z` are not among them.
-/

namespace Pacal.Identity
open Standard Real

/-- algebraic rules -/
inductive Rule : Expr → Expr → Prop
  | add_comm (a b : Expr) : Rule (.add a b) (.add b a)
  | add_assoc (a b c : Expr) : Rule (.add (.add a b) c) (.add a (.add b c))
  | mul_comm (a b : Expr) : Rule (.mul a b) (.mul b a)
  | mul_assoc (a b c : Expr) : Rule (.mul (.mul a b) c) (.mul a (.mul b c))
  | min_comm (a b : Expr) : Rule (.min a b) (.min b a)
  | min_assoc (a b c : Expr) : Rule (.min (.min a b) c) (.min a (.min b c))
  | max_comm (a b : Expr) : Rule (.max a b) (.max b a)
  | max_assoc (a b c : Expr) : Rule (.max (.max a b) c) (.max a (.max b c))
  | sub_add (a b : Expr) : Rule (.sub a b) (.add a (.scale (-1) b))
  | sub_swap (a b : Expr) : Rule (.sub a b) (.scale (-1) (.sub b a))
  | sub_sub (a b c : Expr) : Rule (.sub (.sub a b) c) (.sub a (.add b c))
  | div_mul (a b : Expr) : Rule (.div a b) (.mul a (.step .inv b))
  | div_swap (a b : Expr) : Rule (.step .inv (.div a b)) (.div b a)
  | div_div (a b c : Expr) : Rule (.div (.div a b) c) (.div a (.mul b c))
  | inv_mul (a b : Expr) : Rule (.step .inv (.mul a b)) (.mul (.step .inv a) (.step .inv b))
  | inv_inv (a : Expr) : Rule (.step .inv (.step .inv a)) a
  | abs_mul (a b : Expr) : Rule (.step .abs (.mul a b)) (.mul (.step .abs a) (.step .abs b))
  | abs_abs (a : Expr) : Rule (.step .abs (.step .abs a)) (.step .abs a)
  | square_mul (a b : Expr) : Rule (.step .square (.mul a b)) (.mul (.step .square a) (.step .square b))
  | square_abs (a : Expr) : Rule (.step .square (.step .abs a)) (.step .square a)
  | square_pow (a : Expr) : Rule (.step .square a) (.step (.pow 2) a)
  | inv_pow (a : Expr) : Rule (.step .inv a) (.step (.pow (-1)) a)
  | exp_add (a b : Expr) : Rule (.step .exp (.add a b)) (.mul (.step .exp a) (.step .exp b))
  | exp_sub (a b : Expr) : Rule (.step .exp (.sub a b)) (.div (.step .exp a) (.step .exp b))
  | log_exp (a : Expr) : Rule (.step .log (.step .exp a)) a
  | exp_min (a b : Expr) : Rule (.step .exp (.min a b)) (.min (.step .exp a) (.step .exp b))
  | exp_max (a b : Expr) : Rule (.step .exp (.max a b)) (.max (.step .exp a) (.step .exp b))
  | atan_min (a b : Expr) : Rule (.step .atan (.min a b)) (.min (.step .atan a) (.step .atan b))
  | atan_max (a b : Expr) : Rule (.step .atan (.max a b)) (.max (.step .atan a) (.step .atan b))
  | affine_id (a : Expr) : Rule (.step (.shiftScale 0 1) a) a
  | affine_affine (p q p' q' : ℝ) (a : Expr) :
      Rule (.step (.shiftScale p' q') (.step (.shiftScale p q) a)) (.step (.shiftScale (p * q' + p') (q * q')) a)
  | affine_add (p q c : ℝ) (a b : Expr) :
      Rule (.step (.shiftScale (p + q) c) (.add a b)) (.add (.step (.shiftScale p c) a) (.step (.shiftScale q c) b))
  | scale_mul (c d : ℝ) (a b : Expr) : Rule (.scale (c * d) (.mul a b)) (.mul (.scale c a) (.scale d b))
  | affine_min {c : ℝ} (p : ℝ) (a b : Expr) : 0 ≤ c →
      Rule (.step (.shiftScale p c) (.min a b)) (.min (.step (.shiftScale p c) a) (.step (.shiftScale p c) b))
  | affine_max {c : ℝ} (p : ℝ) (a b : Expr) : 0 ≤ c →
      Rule (.step (.shiftScale p c) (.max a b)) (.max (.step (.shiftScale p c) a) (.step (.shiftScale p c) b))
  | neg_min {c : ℝ} (p : ℝ) (a b : Expr) : c ≤ 0 →
      Rule (.step (.shiftScale p c) (.min a b)) (.max (.step (.shiftScale p c) a) (.step (.shiftScale p c) b))
  | neg_max {c : ℝ} (p : ℝ) (a b : Expr) : c ≤ 0 →
      Rule (.step (.shiftScale p c) (.max a b)) (.min (.step (.shiftScale p c) a) (.step (.shiftScale p c) b))

/-- equality of expressions in distribution: the algebraic rules and the identities of the textbooks, applied anywhere in an
expression and any number of times -/
inductive Equal : Expr → Expr → Prop
  | rule {e e' : Expr} : Rule e e' → Equal e e'
  | same {e : Expr} {k : Kind} : Same e k → Equal e (.dist k)
  | sameTwo {e : Expr} {k : Kind} : SameExact e k → Equal e (.dist k)
  | refl (e : Expr) : Equal e e
  | symm {e e' : Expr} : Equal e e' → Equal e' e
  | trans {e e' e'' : Expr} : Equal e e' → Equal e' e'' → Equal e e''
  | step (s : Step) {e e' : Expr} : Equal e e' → Equal (.step s e) (.step s e')
  | add {a a' b b' : Expr} : Equal a a' → Equal b b' → Equal (.add a b) (.add a' b')
  | sub {a a' b b' : Expr} : Equal a a' → Equal b b' → Equal (.sub a b) (.sub a' b')
  | mul {a a' b b' : Expr} : Equal a a' → Equal b b' → Equal (.mul a b) (.mul a' b')
  | div {a a' b b' : Expr} : Equal a a' → Equal b b' → Equal (.div a b) (.div a' b')
  | min {a a' b b' : Expr} : Equal a a' → Equal b b' → Equal (.min a b) (.min a' b')
  | max {a a' b b' : Expr} : Equal a a' → Equal b b' → Equal (.max a b) (.max a' b')

end Pacal.Identity
