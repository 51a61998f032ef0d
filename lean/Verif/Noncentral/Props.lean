import Verif.Noncentral.LemProps

/-!
# Property theorems: noncentral distributions (C71)

The distribution objects of `pacal.stats.noncentral_distr` have the textbook noncentral laws.
-/

namespace Pacal.Noncentral
open MeasureTheory ProbabilityTheory Standard Identity Set

/-- **C71, chi-square.** `NoncentralChiSquareDistr(df, lmbda)` has the noncentral chi-square law. -/
theorem C71_chiSquare_partial {M : Machine} (hM : Unlimited M) {df lmbda : ℝ} (hdf : df = 1 ∨ 2 ≤ df) (hl : 0 ≤ lmbda) :
    Computes M (noncentralChiSquare df lmbda) (chiSquareLaw df lmbda) := by
  have h1 : 1 ≤ df := by rcases hdf with rfl | h <;> linarith
  exact computes_of hM (chi_some h1 hl) (chiExpr_defined _ hdf _) (chiExpr_law h1 hl)

/-- **C71, F.** `NoncentralFDistr(df1, df2, lmbda)` has the noncentral F law. -/
theorem C71_f_partial {M : Machine} (hM : Unlimited M) {df1 df2 lmbda : ℝ} (h1 : df1 = 1 ∨ 2 ≤ df1) (h2 : 1 ≤ df2) (hl : 0 ≤ lmbda) :
    Computes M (noncentralF df1 df2 lmbda) (fLaw df1 df2 lmbda) := by
  have h : 1 ≤ df1 := by rcases h1 with rfl | h <;> linarith
  refine computes_of hM (by rw [noncentralF, chi_some h hl]; rfl) (f_defined _ h1 h2 _) ?_
  rw [exprLaw, divNum_law, divNum_law, chiExpr_law h hl]
  exact f_law (by linarith) (by linarith) hl

/-- **C71, beta.** `NoncentralBetaDistr(alpha, beta, lmbda)` has the noncentral beta law. -/
theorem C71_beta_partial {M : Machine} (hM : Unlimited M) {a b lmbda : ℝ} (ha : a = 1 / 2 ∨ 1 ≤ a) (hb : 1 / 2 ≤ b) (hl : 0 ≤ lmbda) :
    Computes M (noncentralBeta a b lmbda) (betaLaw a b lmbda) := by
  have h : 1 ≤ 2 * a := by rcases ha with rfl | h <;> linarith
  refine computes_of hM (by rw [noncentralBeta, chi_some h hl]; rfl) (beta_defined _ ha hb _) ?_
  rw [exprLaw, exprLaw, exprLaw, exprLaw, chiExpr_law h hl]
  exact beta_law (by linarith) (by linarith)

/-- **C71, t.** `NoncentralTDistr(df, mu)` has the noncentral t law. -/
theorem C71_t_partial {M : Machine} (hM : Unlimited M) {df : ℝ} (hdf : 1 ≤ df) (mu : ℝ) :
    Computes M (some (noncentralT df mu)) (tLaw df mu) := by
  refine computes_of hM rfl (t_defined _ hdf _) ?_
  rw [noncentralT, exprLaw, exprLaw, exprLaw, divNum_law, exprLaw, show (0.5 : ℝ) = 1 / 2 by norm_num]
  exact t_law (by linarith) mu

/-- **C71, central cases.** With noncentrality 0 the laws are those of `ChiSquareDistr`, `FDistr`, `BetaDistr` and
`StudentTDistr`. -/
theorem C71_central_partial {M : Machine} (hM : Unlimited M) :
    (∀ df, df = 1 ∨ 2 ≤ df → Computes M (noncentralChiSquare df 0) (kindLaw (.chiSquare df))) ∧
    (∀ a b, a = 1 ∨ 2 ≤ a → 1 ≤ b → Computes M (noncentralF a b 0) (kindLaw (.fDistr a b))) ∧
    (∀ a b, a = 1 / 2 ∨ 1 ≤ a → 1 / 2 ≤ b → Computes M (noncentralBeta a b 0) (kindLaw (.beta a b))) ∧
    ∀ df, 1 ≤ df → Computes M (some (noncentralT df 0)) (kindLaw (.studentT df)) := by
  refine ⟨fun df h => ?_, fun a b ha hb => ?_, fun a b ha hb => ?_, fun df h => ?_⟩
  · rw [← chiSquare_central]; exact C71_chiSquare_partial hM h le_rfl
  · rw [← fLaw_central (by rcases ha with rfl | h <;> linarith) (by linarith)]; exact C71_f_partial hM ha hb le_rfl
  · rw [← betaLaw_central]; exact C71_beta_partial hM ha hb le_rfl
  · rw [← tLaw_central (by linarith)]; exact C71_t_partial hM h 0

/-- **C71, sums of squares.** The sum of the squares of `n` independent normal variables with variance 1 has the same law as
`NoncentralChiSquareDistr(n, lmbda)` with the sum of the squares of the means as `lmbda`. -/
theorem C71_sum_of_squares_partial {M : Machine} (hM : Unlimited M) (m : ℝ) (ms : List ℝ) :
    ∃ r e s, (sumSquares m ms).run M = some r ∧
      noncentralChiSquare (m :: ms).length ((m :: ms).map (· ^ 2)).sum = some e ∧ e.run M = some s ∧ PF.law r = PF.law s := by
  obtain ⟨r, h1, -, -, h2⟩ := C68_unlimited_partial hM (sumSquares_defined M.neg0 m ms)
  obtain ⟨e, s, g1, g2, -, -, g3, -⟩ := C71_chiSquare_partial hM (df := (m :: ms).length) (lmbda := ((m :: ms).map (· ^ 2)).sum)
    (length_ok m ms) (sum_sq_nonneg _)
  exact ⟨r, e, s, h1, g1, g2, by rw [h2, sumSquares_law, g3]⟩

/-- **C71, additivity.** The sum of two independent noncentral chi-square variables is noncentral chi-square. -/
theorem C71_add_partial {M : Machine} (hM : Unlimited M) {k l a b : ℝ} (hk : k = 1 ∨ 2 ≤ k) (hl : l = 1 ∨ 2 ≤ l) (ha : 0 ≤ a)
    (hb : 0 ≤ b) : ∃ x y, noncentralChiSquare k a = some x ∧ noncentralChiSquare l b = some y ∧
      Computes M (some (.add x y)) (chiSquareLaw (k + l) (a + b)) := by
  have h1 : 1 ≤ k := by rcases hk with rfl | h <;> linarith
  have h2 : 1 ≤ l := by rcases hl with rfl | h <;> linarith
  have hd : Defined M.neg0 (.add (chiExpr k a) (chiExpr l b)) :=
    ⟨chiExpr_defined _ hk _, chiExpr_defined _ hl _, chiExpr_cont _ _, chiExpr_cont _ _⟩
  refine ⟨_, _, chi_some h1 ha, chi_some h2 hb, computes_of hM rfl hd ?_⟩
  rw [exprLaw, chiExpr_law h1 ha, chiExpr_law h2 hb, chiSquare_add (by linarith) (by linarith) ha hb]

/-- **C71, squares of t.** The square of a noncentral t variable is a noncentral F variable. -/
theorem C71_t_square_partial {M : Machine} (hM : Unlimited M) {df : ℝ} (hdf : 1 ≤ df) (mu : ℝ) :
    Computes M (some (.step .square (noncentralT df mu))) (fLaw 1 df (mu ^ 2)) := by
  have hc : Cont (noncentralT df mu) := divNum_cont (e := .dist (.chiSquare df)) trivial df
  have hd : Defined M.neg0 (.step .square (noncentralT df mu)) := ⟨t_defined _ hdf _, hc, trivial⟩
  refine computes_of hM rfl hd ?_
  rw [exprLaw, noncentralT, exprLaw, exprLaw, exprLaw, divNum_law, exprLaw, show (0.5 : ℝ) = 1 / 2 by norm_num]
  exact t_square (by linarith) mu

/-- `NoncentralChiSquareDistr(df, lmbda)` accepts every `df >= 1`, but for `1 < df < 2` the summand `ChiSquareDistr(df - 1)` has no
density, and nothing can be computed; likewise for `NoncentralFDistr` and, with `1/2 < alpha < 1`, for
`NoncentralBetaDistr`. -/
theorem C71_violated_small_df (M : Machine) {df lmbda : ℝ} (h1 : 1 < df) (h2 : df < 2) (hl : 0 ≤ lmbda) :
    (∃ e, noncentralChiSquare df lmbda = some e ∧ e.run M = none) ∧
    (∀ df2, ∃ e, noncentralF df df2 lmbda = some e ∧ e.run M = none) ∧
    ∀ b, ∃ e, noncentralBeta (df / 2) b lmbda = some e ∧ e.run M = none := by
  have h : (chiExpr df lmbda).run M = none := by
    have hc : (Kind.chiSquare (df - 1)).build M.env = none :=
      C46_violated_chiSquare_small_df M.env.eps M.env.lg (by linarith) (by linarith)
    rw [chiExpr, if_pos h1, Expr.run, Expr.run]
    cases (Expr.step (.pow 2) (.dist (.normal (√lmbda) 1))).run M with
    | none => rfl
    | some f => rw [Option.bind_some, hc]; rfl
  refine ⟨⟨_, chi_some h1.le hl, h⟩, fun df2 => ⟨_, by rw [noncentralF, chi_some h1.le hl]; rfl, ?_⟩,
    fun b => ⟨_, by rw [noncentralBeta, mul_div_cancel₀ df two_ne_zero, chi_some h1.le hl]; rfl, ?_⟩⟩
  · rw [Expr.run, divNum, if_neg h1.ne', Expr.run, h]; rfl
  · rw [Expr.run, Expr.run, Expr.run, h]
    cases (Expr.dist (.chiSquare (2 * b))).run M <;> rfl

/-! ### the hypotheses can be met -/

example : Computes ideal (noncentralChiSquare 3 (5 / 2)) (chiSquareLaw 3 (5 / 2)) :=
  C71_chiSquare_partial ideal_ok (.inr (by norm_num)) (by norm_num)

example : Computes ideal (noncentralF 1 4 2) (fLaw 1 4 2) := C71_f_partial ideal_ok (.inl rfl) (by norm_num) (by norm_num)

example : Computes ideal (noncentralBeta (1 / 2) (7 / 2) 2) (betaLaw (1 / 2) (7 / 2) 2) :=
  C71_beta_partial ideal_ok (.inl rfl) (by norm_num) (by norm_num)

example : Computes ideal (some (noncentralT 3 (-1))) (tLaw 3 (-1)) := C71_t_partial ideal_ok (by norm_num) _

example : ∃ r e s, (sumSquares 1 [2, 3]).run ideal = some r ∧ noncentralChiSquare 3 14 = some e ∧ e.run ideal = some s ∧
    PF.law r = PF.law s := by
  have h := C71_sum_of_squares_partial ideal_ok 1 [2, 3]
  norm_num only [List.length_cons, List.length_nil, List.map_cons, List.map_nil, List.sum_cons, List.sum_nil] at h
  exact h

example : ∃ e, noncentralChiSquare (3 / 2) 1 = some e ∧ e.run ideal = none :=
  (C71_violated_small_df ideal (by norm_num) (by norm_num) (by norm_num)).1

end Pacal.Noncentral
