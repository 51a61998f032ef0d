import Verif.Standard.LemE
import Verif.Standard.PropsD

/-!
C46: the trapezoidal distribution, and constructors which accept invalid parameters.
-/

namespace Pacal.Standard
open MeasureTheory Real Filter Topology Set

/-- `TrapezoidalDistr(a, b, c, d)` with `a ≤ b ≤ c ≤ d`, not all equal, is a probability law whose density is proportional
to the trapezoid. -/
theorem C46_trapezoidal {eps : ℝ} (he : 0 ≤ eps) {a b c d : ℝ} (hab : a ≤ b) (hbc : b ≤ c) (hcd : c ≤ d) (had : a < d) :
    ∃ u, 0 < u ∧ Rep eps (trapezoidal eps a b c d) (Textbook.law fun x => u * Textbook.trapezoid a b c d x) ∧
      IsProbabilityMeasure (Textbook.law fun x => u * Textbook.trapezoid a b c d x) := by
  have hpos : 0 < d + c - (b + a) := by
    rcases lt_or_eq_of_le hbc with h | h
    · linarith
    · linarith
  refine ⟨2 / (d + c - (b + a)), by positivity, ?_⟩
  obtain ⟨u, hu⟩ : ∃ u, u = 2 / (d + c - (b + a)) := ⟨_, rfl⟩
  have hu0 : 0 < u := by rw [hu]; positivity
  rw [← hu, trapezoidal, if_neg hpos.ne']
  rw [← hu]
  have hch : Chain (fun x => u * Textbook.trapezoid a b c d x) (.fin a) (.fin d)
      ((if a < b then [.fin .none a b (linFun1 a b u)] else []) ++
      ((if b < c then [.const b c u] else []) ++
      ((if c < d then [.fin .none c d (linFun2 c d u)] else []) ++ []))) := by
    have h3 := chain_opt (f := fun x => u * Textbook.trapezoid a b c d x) (a := c) (b := d) (hi := .fin d)
      (.fin .none c d (linFun2 c d u)) rfl rfl rfl hcd (by
        intro x h1 h2
        simp only [Seg.fn, linFun2, Textbook.trapezoid]
        rw [if_neg (not_lt.2 ((hab.trans hbc).trans h1)), if_neg (not_lt.2 (hbc.trans h1)), if_neg (not_lt.2 h1), if_pos h2,
          mul_div_assoc]) (l := []) (Or.inr ⟨rfl, rfl⟩)
    have h2 := chain_opt (f := fun x => u * Textbook.trapezoid a b c d x) (a := b) (b := c) (hi := .fin d)
      (.const b c u) rfl rfl rfl hbc (by
        intro x h1 h2
        simp only [Seg.fn, Textbook.trapezoid]
        rw [if_neg (not_lt.2 (hab.trans h1)), if_neg (not_lt.2 h1), if_pos h2, mul_one]) h3
    have h1 := chain_opt (f := fun x => u * Textbook.trapezoid a b c d x) (a := a) (b := b) (hi := .fin d)
      (.fin .none a b (linFun1 a b u)) rfl rfl rfl hab (by
        intro x h1 h2
        simp only [Seg.fn, linFun1, Textbook.trapezoid]
        rw [if_neg (not_lt.2 h1), if_pos h2, mul_div_assoc]) h2
    rcases h1 with h | ⟨_, h⟩
    · exact h
    · exact absurd (Ext.fin_inj.1 h) had.ne'
  dsimp only
  rw [List.append_assoc]
  rw [List.append_nil] at hch
  refine rep_textbook hch he ((measurable_trapezoid a b c d).const_mul u)
    (fun x => mul_nonneg hu0.le (trapezoid_nonneg x)) ?_ ?_
  · intro x hx
    rw [ext_fin] at hx
    simp only [Textbook.trapezoid]
    by_cases h : x < a
    · rw [if_pos h, mul_zero]
    · have hd : ¬ x < d := fun h' => hx ⟨not_lt.1 h, h'⟩
      rw [if_neg h, if_neg (fun h' => hd (h'.trans_le (hbc.trans hcd))), if_neg (fun h' => hd (h'.trans_le hcd)), if_neg hd,
        mul_zero]
  · rw [integral_const_mul, integral_trapezoid hab hbc hcd, hu]
    field_simp

example : ∃ u, 0 < u ∧ Rep 1e-14 (trapezoidal 1e-14 0 0 2 3) (Textbook.law fun x => u * Textbook.trapezoid 0 0 2 3 x) ∧
    IsProbabilityMeasure (Textbook.law fun x => u * Textbook.trapezoid 0 0 2 3 x) :=
  C46_trapezoidal (by norm_num) (by norm_num) (by norm_num) (by norm_num) (by norm_num)

/-! ### Unchecked parameters -/

/-- `UniformDistr(1, 0)`, `ExponentialDistr(-1)` and `CauchyDistr(-1)` are accepted although their densities take negative
values. -/
theorem C46_violated_unchecked :
    uniform 0 1 0 = some [.const 1 0 (-1)] ∧
    (∃ l, exponential 0 (-1) = some l) ∧ exponentialPdf (-1) 0 < 0 ∧
    cauchyPdf (-1) 0 0 < 0 := by
  refine ⟨?_, ?_, ?_, ?_⟩
  · rw [uniform, if_neg (by norm_num)]
    norm_num [PF.addAll, PF.addSegment, PF.insertSeg]
    rfl
  · exact ⟨_, (chain_half .none zero_lt_one (Eventually.of_forall fun x _ => rfl)).addAll le_rfl⟩
  · norm_num [exponentialPdf]
  · rw [cauchyPdf]
    have := pi_pos
    refine div_neg_of_neg_of_pos (by norm_num) (by positivity)

end Pacal.Standard
