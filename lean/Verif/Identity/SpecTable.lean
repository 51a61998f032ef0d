import Verif.Identity.Spec

/-!
Independent specification: the identities between standard distributions listed in textbooks.  `Same e k` says that the
expression `e` of independent variables has the distribution `k`.
-/

namespace Pacal.Identity
open Standard Real

/-- `c * e` -/
def Expr.scale (c : ℝ) (e : Expr) : Expr := .step (.shiftScale 0 c) e

/-- functions of one variable, minima and maxima -/
inductive Same : Expr → Kind → Prop
  -- affine functions
  | normal_affine {m s : ℝ} (a : ℝ) {b : ℝ} : 0 < s → b ≠ 0 →
      Same (.step (.shiftScale a b) (.dist (.normal m s))) (.normal (m * b + a) (|b| * s))
  | uniform_affine {p q : ℝ} (a : ℝ) {b : ℝ} : p < q → 0 < b →
      Same (.step (.shiftScale a b) (.dist (.uniform p q))) (.uniform (p * b + a) (q * b + a))
  | uniform_flip {p q : ℝ} (a : ℝ) {b : ℝ} : p < q → b < 0 →
      Same (.step (.shiftScale a b) (.dist (.uniform p q))) (.uniform (q * b + a) (p * b + a))
  | cauchy_affine {g : ℝ} (c a : ℝ) {b : ℝ} : 0 < g → b ≠ 0 →
      Same (.step (.shiftScale a b) (.dist (.cauchy g c))) (.cauchy (|b| * g) (c * b + a))
  | laplace_affine {l : ℝ} (m a : ℝ) {b : ℝ} : 0 < l → b ≠ 0 →
      Same (.step (.shiftScale a b) (.dist (.laplace l m))) (.laplace (|b| * l) (m * b + a))
  | levy_affine {c : ℝ} (m a : ℝ) {b : ℝ} : 0 < c → 0 < b →
      Same (.step (.shiftScale a b) (.dist (.levy c m))) (.levy (b * c) (m * b + a))
  | frechet_affine {al s : ℝ} (m a : ℝ) {b : ℝ} : 0 < al → 0 < s → 0 < b →
      Same (.step (.shiftScale a b) (.dist (.frechet al s m))) (.frechet al (b * s) (m * b + a))
  | gamma_scale {k t b : ℝ} : 0 < k → 0 < t → 0 < b → Same (.scale b (.dist (.gamma k t))) (.gamma k (b * t))
  | exponential_scale {r b : ℝ} : 0 < r → 0 < b → Same (.scale b (.dist (.exponential r))) (.exponential (r / b))
  | weibull_scale {k l b : ℝ} : 0 < k → 0 < l → 0 < b → Same (.scale b (.dist (.weibull k l))) (.weibull k (b * l))
  | logLogistic_scale {k s b : ℝ} : 0 < k → 0 < s → 0 < b → Same (.scale b (.dist (.logLogistic k s))) (.logLogistic k (b * s))
  | pareto_scale {al xm b : ℝ} : 0 < al → 0 < xm → 0 < b → Same (.scale b (.dist (.pareto al xm))) (.pareto al (b * xm))
  | semicircle_scale {R b : ℝ} : 0 < R → b ≠ 0 → Same (.scale b (.dist (.semicircle R))) (.semicircle (|b| * R))
  | beta_flip {a b : ℝ} : 0 < a → 0 < b → Same (.step (.shiftScale 1 (-1)) (.dist (.beta a b))) (.beta b a)
  -- exponentials and logarithms
  | exp_exponential {al : ℝ} : 0 < al → Same (.step .exp (.dist (.exponential al))) (.pareto al 1)
  | log_pareto {al : ℝ} : 0 < al → Same (.step .log (.dist (.pareto al 1))) (.exponential al)
  | log_uniform {al : ℝ} : 0 < al → Same (.scale (-1 / al) (.step .log (.dist (.uniform 0 1)))) (.exponential al)
  -- reciprocals
  | inv_cauchy {g : ℝ} : 0 < g → Same (.step .inv (.dist (.cauchy g 0))) (.cauchy (1 / g) 0)
  | inv_weibull {k l : ℝ} : 0 < k → 0 < l → Same (.step .inv (.dist (.weibull k l))) (.frechet k (1 / l) 0)
  | inv_frechet {k s : ℝ} : 0 < k → 0 < s → Same (.step .inv (.dist (.frechet k s 0))) (.weibull k (1 / s))
  | inv_logLogistic {k s : ℝ} : 0 < k → 0 < s → Same (.step .inv (.dist (.logLogistic k s))) (.logLogistic k (1 / s))
  | inv_fDistr {a b : ℝ} : 0 < a → 0 < b → Same (.step .inv (.dist (.fDistr a b))) (.fDistr b a)
  | inv_levy {c : ℝ} : 0 < c → Same (.step .inv (.dist (.levy c 0))) (.gamma (1 / 2) (2 / c))
  | inv_pareto {a : ℝ} : 0 < a → Same (.step .inv (.dist (.pareto a 1))) (.beta a 1)
  -- powers
  | pow_weibull {k l d : ℝ} : 0 < k → 0 < l → 0 < d → Same (.step (.pow d) (.dist (.weibull k l))) (.weibull (k / d) (l ^ d))
  | pow_exponential {r d : ℝ} : 0 < r → 0 < d → Same (.step (.pow d) (.dist (.exponential r))) (.weibull (1 / d) ((1 / r) ^ d))
  | pow_pareto {al xm d : ℝ} : 0 < al → 0 < xm → 0 < d → Same (.step (.pow d) (.dist (.pareto al xm))) (.pareto (al / d) (xm ^ d))
  | pow_logLogistic {k s d : ℝ} : 0 < k → 0 < s → 0 < d →
      Same (.step (.pow d) (.dist (.logLogistic k s))) (.logLogistic (k / d) (s ^ d))
  | pow_uniform {a : ℝ} : 0 < a → Same (.step (.pow (1 / a)) (.dist (.uniform 0 1))) (.beta a 1)
  -- squares, absolute values, arc tangents
  | square_normal {s : ℝ} : 0 < s → Same (.step .square (.dist (.normal 0 s))) (.gamma (1 / 2) (2 * s ^ 2))
  | square_standard : Same (.step .square (.dist (.normal 0 1))) (.chiSquare 1)
  | square_studentT {v : ℝ} : 0 < v → Same (.step .square (.dist (.studentT v))) (.fDistr 1 v)
  | abs_laplace {l : ℝ} : 0 < l → Same (.step .abs (.dist (.laplace l 0))) (.exponential (1 / l))
  | atan_cauchy : Same (.step .atan (.dist (.cauchy 1 0))) (.uniform (-(π / 2)) (π / 2))
  -- special cases
  | chiSquare_gamma {d : ℝ} : 1 ≤ d → Same (.dist (.chiSquare d)) (.gamma (d / 2) 2)
  | gamma_exponential {t : ℝ} : 0 < t → Same (.dist (.gamma 1 t)) (.exponential (1 / t))
  | weibull_exponential {r : ℝ} : 0 < r → Same (.dist (.weibull 1 (1 / r))) (.exponential r)
  | studentT_cauchy : Same (.dist (.studentT 1)) (.cauchy 1 0)
  | beta_uniform : Same (.dist (.beta 1 1)) (.uniform 0 1)
  | trapezoidal_uniform {a b : ℝ} : a < b → Same (.dist (.trapezoidal a a b b)) (.uniform a b)
  -- minima and maxima
  | min_exponential {r₁ r₂ : ℝ} : 0 < r₁ → 0 < r₂ →
      Same (.min (.dist (.exponential r₁)) (.dist (.exponential r₂))) (.exponential (r₁ + r₂))
  | min_weibull {k l₁ l₂ : ℝ} : 0 < k → 0 < l₁ → 0 < l₂ →
      Same (.min (.dist (.weibull k l₁)) (.dist (.weibull k l₂))) (.weibull k ((l₁ ^ (-k) + l₂ ^ (-k)) ^ (-1 / k)))
  | min_pareto {a₁ a₂ xm : ℝ} : 0 < a₁ → 0 < a₂ → 0 < xm →
      Same (.min (.dist (.pareto a₁ xm)) (.dist (.pareto a₂ xm))) (.pareto (a₁ + a₂) xm)
  | max_frechet {al s₁ s₂ : ℝ} : 0 < al → 0 < s₁ → 0 < s₂ →
      Same (.max (.dist (.frechet al s₁ 0)) (.dist (.frechet al s₂ 0))) (.frechet al ((s₁ ^ al + s₂ ^ al) ^ (1 / al)) 0)
  | max_beta {a b : ℝ} : 0 < a → 0 < b → Same (.max (.dist (.beta a 1)) (.dist (.beta b 1))) (.beta (a + b) 1)

/-- sums, differences and quotients -/
inductive SameExact : Expr → Kind → Prop
  | add_normal {m₁ m₂ s₁ s₂ : ℝ} : 0 < s₁ → 0 < s₂ →
      SameExact (.add (.dist (.normal m₁ s₁)) (.dist (.normal m₂ s₂))) (.normal (m₁ + m₂) (√(s₁ ^ 2 + s₂ ^ 2)))
  | sub_normal {m₁ m₂ s₁ s₂ : ℝ} : 0 < s₁ → 0 < s₂ →
      SameExact (.sub (.dist (.normal m₁ s₁)) (.dist (.normal m₂ s₂))) (.normal (m₁ - m₂) (√(s₁ ^ 2 + s₂ ^ 2)))
  | add_gamma {p q t : ℝ} : 0 < p → 0 < q → 0 < t →
      SameExact (.add (.dist (.gamma p t)) (.dist (.gamma q t))) (.gamma (p + q) t)
  | add_exponential {r : ℝ} : 0 < r →
      SameExact (.add (.dist (.exponential r)) (.dist (.exponential r))) (.gamma 2 (1 / r))
  | add_chiSquare {p q : ℝ} : 1 ≤ p → 1 ≤ q →
      SameExact (.add (.dist (.chiSquare p)) (.dist (.chiSquare q))) (.chiSquare (p + q))
  | sub_exponential {r : ℝ} : 0 < r →
      SameExact (.sub (.dist (.exponential r)) (.dist (.exponential r))) (.laplace (1 / r) 0)
  | add_uniform {a b c d : ℝ} : a < b → c < d → b - a ≤ d - c →
      SameExact (.add (.dist (.uniform a b)) (.dist (.uniform c d))) (.trapezoidal (a + c) (b + c) (a + d) (b + d))
  | div_normal {s₁ s₂ : ℝ} : 0 < s₁ → 0 < s₂ →
      SameExact (.div (.dist (.normal 0 s₁)) (.dist (.normal 0 s₂))) (.cauchy (s₁ / s₂) 0)
  | div_exponential {r₁ r₂ : ℝ} : 0 < r₁ → 0 < r₂ →
      SameExact (.div (.dist (.exponential r₁)) (.dist (.exponential r₂))) (.logLogistic 1 (r₂ / r₁))
  | fDistr {a b : ℝ} : 1 ≤ a → 1 ≤ b →
      SameExact (.div (.scale (1 / a) (.dist (.chiSquare a))) (.scale (1 / b) (.dist (.chiSquare b)))) (.fDistr a b)
  | studentT {v : ℝ} : 1 ≤ v →
      SameExact (.div (.dist (.normal 0 1)) (.step (.pow (1 / 2)) (.scale (1 / v) (.dist (.chiSquare v))))) (.studentT v)

end Pacal.Identity
