import Verif.Noncentral.Model
import Verif.Noncentral.LemQuot
import Verif.Identity.LemExact

/-!
Lemmas for `Verif.Noncentral.Props`: the law of the expressions built by the constructors.
-/

namespace Pacal.Noncentral
open MeasureTheory ProbabilityTheory Standard Identity Set Real

theorem scale_one (μ : Measure ℝ) : μ.map (stepFn (.shiftScale 0 1)) = μ := by
  have : stepFn (.shiftScale 0 1) = id := by ext x; simp [stepFn]
  rw [this, Measure.map_id]

theorem divNum_law (e : Expr) (d : ℝ) : exprLaw (divNum e d) = (exprLaw e).map (stepFn (.shiftScale 0 (1 / d))) := by
  unfold divNum
  split_ifs with h
  · rw [h, div_one, scale_one]
  · rfl

theorem pow_two_fn : stepFn (.pow 2) = stepFn .square := by
  ext x
  simp only [stepFn]
  exact_mod_cast rpow_natCast x 2

theorem zero_law : exprLaw zeroDistr = Measure.dirac 0 := by simp [exprLaw, zeroDistr]

theorem add_dirac (μ : Measure ℝ) [SFinite μ] : opLaw (· + ·) μ (Measure.dirac 0) = μ := by
  rw [opLaw, Measure.prod_dirac, Measure.map_map (by fun_prop) (by fun_prop)]
  have : (fun p : ℝ × ℝ => p.1 + p.2) ∘ (fun x => (x, (0 : ℝ))) = id := by ext x; simp
  rw [this, Measure.map_id]

/-- the expression built by the constructor of the noncentral chi-square distribution -/
noncomputable def chiExpr (df l : ℝ) : Expr :=
  .add (.step (.pow 2) (.dist (.normal (√l) 1))) (if df > 1 then .dist (.chiSquare (df - 1)) else zeroDistr)

theorem chi_some {df l : ℝ} (hdf : 1 ≤ df) (hl : 0 ≤ l) : noncentralChiSquare df l = some (chiExpr df l) := by
  rw [noncentralChiSquare, if_pos ⟨hdf, hl⟩]; rfl

theorem chiExpr_law {df l : ℝ} (hdf : 1 ≤ df) (hl : 0 ≤ l) : exprLaw (chiExpr df l) = chiSquareLaw df l := by
  have h1 : exprLaw (.step (.pow 2) (.dist (.normal (√l) 1))) = chiSquareLaw 1 l := by
    rw [exprLaw, exprLaw, pow_two_fn, square_noncentral, sq_sqrt hl]
  rw [chiExpr, exprLaw, h1]
  by_cases h : df > 1
  · rw [if_pos h, exprLaw, ← chiSquare_central, chiSquare_add one_pos (by linarith) hl le_rfl, add_sub_cancel, add_zero]
  · have := chi_sfinite 1
    have : SFinite (chiSquareLaw 1 l) := by rw [← h1, exprLaw, exprLaw, kindLaw]; infer_instance
    rw [if_neg h, zero_law, add_dirac, le_antisymm (not_lt.1 h) hdf]

theorem chiExpr_cont (df l : ℝ) : Cont (chiExpr df l) := by simp [chiExpr, Cont]

theorem chiExpr_defined (neg0 : Bool) {df : ℝ} (hdf : df = 1 ∨ 2 ≤ df) (l : ℝ) : Defined neg0 (chiExpr df l) := by
  rcases hdf with rfl | h
  · norm_num [chiExpr, zeroDistr, Defined, Cont, TableOK, Kind.Valid, Identity.Exact, StepOK, Gapless, StepGapless]
  · rw [chiExpr, if_pos (by linarith)]
    have hk : (Kind.chiSquare (df - 1)).Valid := by change (1 : ℝ) ≤ df - 1; linarith
    norm_num [Defined, Cont, Identity.Exact, StepOK, Gapless, StepGapless, hk]
    exact one_pos

theorem chiExpr_nonneg (neg0 : Bool) (df l : ℝ) : Nonneg neg0 (chiExpr df l) := by
  unfold chiExpr
  split_ifs <;> simp [Nonneg, StepNonneg, KindPos, zeroDistr]

theorem divNum_cont {e : Expr} (h : Cont e) (d : ℝ) : Cont (divNum e d) := by unfold divNum; split_ifs <;> exact h

theorem divNum_defined {neg0 : Bool} {e : Expr} (h : Defined neg0 e) (hc : Cont e) {d : ℝ} (hd : d ≠ 0) :
    Defined neg0 (divNum e d) := by
  unfold divNum
  split_ifs
  · exact h
  · exact ⟨h, hc, one_div_ne_zero hd⟩

theorem divNum_nonneg {neg0 : Bool} {e : Expr} (h : Nonneg neg0 e) {d : ℝ} (hd : 0 < d) : Nonneg neg0 (divNum e d) := by
  unfold divNum
  split_ifs
  · exact h
  · exact ⟨le_rfl, one_div_pos.2 hd, h⟩

theorem zeroFree_of_cont {e : Expr} (h : Cont e) : ZeroFree e := by
  cases e <;> first | exact h | exact h.elim

theorem chi_defined (neg0 : Bool) {df : ℝ} (hdf : 1 ≤ df) : Defined neg0 (.dist (.chiSquare df)) := ⟨hdf, trivial⟩

theorem chi_nonneg (neg0 : Bool) (df : ℝ) : Nonneg neg0 (.dist (.chiSquare df)) := trivial

theorem t_defined (neg0 : Bool) {df : ℝ} (hdf : 1 ≤ df) (μ : ℝ) : Defined neg0 (noncentralT df μ) := by
  have h0 : (0 : ℝ) < df := by linarith
  have hk : Cont (.dist (.chiSquare df)) := trivial
  refine ⟨⟨?_, trivial⟩, ⟨divNum_defined (chi_defined _ hdf) hk h0.ne', divNum_cont hk _, ?_⟩, trivial, divNum_cont hk _⟩
  · exact one_pos
  · exact ⟨by norm_num, .inr (.inr (.inr (divNum_nonneg (chi_nonneg _ _) h0)))⟩

theorem f_defined (neg0 : Bool) {a b : ℝ} (ha : a = 1 ∨ 2 ≤ a) (hb : 1 ≤ b) (l : ℝ) :
    Defined neg0 (.div (divNum (chiExpr a l) a) (divNum (.dist (.chiSquare b)) b)) := by
  have h0 : a ≠ 0 := by rcases ha with rfl | h <;> [norm_num; linarith]
  have hk : Cont (.dist (.chiSquare b)) := trivial
  exact ⟨divNum_defined (chiExpr_defined _ ha l) (chiExpr_cont _ _) h0, divNum_defined (chi_defined _ hb) hk (by linarith),
    zeroFree_of_cont (divNum_cont (chiExpr_cont _ _) _), divNum_cont hk _⟩

theorem beta_defined (neg0 : Bool) {a b : ℝ} (ha : a = 1 / 2 ∨ 1 ≤ a) (hb : 1 / 2 ≤ b) (l : ℝ) :
    Defined neg0 (.step .inv (.step (.shiftScale 1 1) (.div (.dist (.chiSquare (2 * b))) (chiExpr (2 * a) l)))) := by
  have h2 : 2 * a = 1 ∨ 2 ≤ 2 * a := by rcases ha with rfl | h <;> [left; right] <;> linarith
  have hc := chiExpr_cont (2 * a) l
  have hb' : (Kind.chiSquare (2 * b)).Valid := by change (1 : ℝ) ≤ 2 * b; linarith
  exact ⟨⟨⟨⟨hb', trivial⟩, chiExpr_defined _ h2 l, trivial, hc⟩, hc, one_ne_zero⟩, hc, trivial⟩

end Pacal.Noncentral
