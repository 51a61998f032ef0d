import Mathlib.Analysis.SpecialFunctions.Pow.Continuity
import Verif.Standard.LemA

/-!
Lemmas for `Verif.Standard.PropsB`.
-/

namespace Pacal.Standard
open MeasureTheory ProbabilityTheory Real Filter Topology

theorem ofFun_three (eps : ℝ) (f : ℝ → ℝ) {c a : ℝ} (ha : c < a) (p : Bool) :
    ofFun eps f [.fin c, .fin a, .pinf] (some [p, false, false]) none =
      PF.addAll eps [] [.fin (if p then .left else .none) c a f, .pinf a f] := by
  have h1 : Ext.fin c < Ext.fin a := Ext.fin_lt_fin.2 ha
  have h2 : Ext.fin a ≤ Ext.pinf := (fin_lt_pinf a).le
  cases p <;> simp [ofFun, pieces, laterPieces, finPiece, h1, h2, fin_ne_ninf, fin_ne_pinf]

theorem ofFun_four (eps : ℝ) (f : ℝ → ℝ) {c a b : ℝ} (ha : c < a) (p : Bool) :
    ofFun eps f [.fin c, .fin a, .fin b, .pinf] (some [p, false, false, false]) none =
      PF.addAll eps [] [.fin (if p then .left else .none) c a f, .fin .none a b f, .pinf b f] := by
  have h1 : Ext.fin c < Ext.fin a := Ext.fin_lt_fin.2 ha
  have h2 : Ext.fin a ≤ Ext.pinf := (fin_lt_pinf a).le
  cases p <;> simp [ofFun, pieces, laterPieces, finPiece, h1, h2, fin_ne_ninf, fin_ne_pinf]

theorem chiSquare_formula (lg : ℝ → ℝ) (df x : ℝ) : chiSquareLogPdf lg df x = gammaLogPdf lg (df / 2) 2 x := rfl

theorem beta_formula {lg : ℝ → ℝ} (hlg : ∀ x, 0 < x → lg x = log (Gamma x)) {alpha beta : ℝ} (ha : 0 < alpha)
    (hb : 0 < beta) {x : ℝ} (h0 : 0 < x) (h1 : x < 1) :
    betaPdf lg alpha beta x = Flt.real (betaPDFReal alpha beta x) := by
  have hx : ¬ (x < 0 ∨ x > 1) := by rintro (h | h) <;> linarith
  have h1' : 0 < 1 - x := by linarith
  have mulr : ∀ a b : ℝ, (Flt.real a).mul (Flt.real b) = Flt.real (a * b) := by
    intro a b
    simp [Flt.mul, Flt.real]
  have addr : ∀ a b : ℝ, (Flt.real a).add (Flt.real b) = Flt.real (a + b) := by
    intro a b
    simp [Flt.add, Flt.real]
  have expr : ∀ a : ℝ, (Flt.real a).exp = Flt.real (exp a) := by
    intro a
    simp [Flt.exp, Flt.real]
  have hl : ∀ a : ℝ, 0 < a → Flt.log a = Flt.real (log a) := fun a ha => if_pos ha
  rw [betaPdf, if_neg hx, hl _ h0, hl _ h1', mulr, mulr, addr, addr, expr, betaPDFReal, if_pos ⟨h0, h1⟩,
    hlg _ (by linarith), hlg _ ha, hlg _ hb, rpow_def_of_pos h0, rpow_def_of_pos h1']
  congr 1
  rw [exp_add, exp_add, exp_sub, exp_sub, exp_log (Gamma_pos_of_pos (by linarith)), exp_log (Gamma_pos_of_pos ha),
    exp_log (Gamma_pos_of_pos hb), ProbabilityTheory.beta, one_div_div, div_div]

theorem tendsto_zero_density {a c : ℝ} (hc : 0 < c) {g : ℝ → ℝ} (hg : Tendsto g (𝓝[>] 0) (𝓝 1)) :
    Tendsto (fun x : ℝ => ((c * x ^ (a - 1) * g x : ℝ) : EReal)) (𝓝[>] 0)
      (𝓝 (if a < 1 then ⊤ else if a = 1 then (c : EReal) else 0)) := by
  split_ifs with h1 h2
  · rw [EReal.tendsto_coe_nhds_top_iff]
    have h3 : Tendsto (fun x : ℝ => x ^ (a - 1)) (𝓝[>] 0) atTop := by
      have := tendsto_rpow_neg_nhdsGT_zero (show a - 1 < 0 by linarith)
      exact this
    exact (h3.const_mul_atTop hc).atTop_mul_pos one_pos hg
  · subst h2
    refine EReal.tendsto_coe.2 ?_
    simpa using hg.const_mul c
  · have h3 : Tendsto (fun x : ℝ => x ^ (a - 1)) (𝓝[>] 0) (𝓝 0) := by
      have hpos : 0 < a - 1 := by
        rcases lt_or_gt_of_ne h2 with h | h
        · exact absurd h h1
        · linarith
      have := (continuousAt_rpow_const 0 (a - 1) (Or.inr hpos.le)).tendsto
      rw [zero_rpow hpos.ne'] at this
      exact this.mono_left nhdsWithin_le_nhds
    have := (h3.const_mul c).mul hg
    simp only [mul_zero, zero_mul] at this
    exact EReal.tendsto_coe.2 this

end Pacal.Standard
