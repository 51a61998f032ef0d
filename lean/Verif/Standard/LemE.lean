import Verif.Standard.LemD

/-!
Lemmas for `Verif.Standard.PropsE`.
-/

namespace Pacal.Standard
open MeasureTheory Real Filter Topology Set

theorem measurable_trapezoid (a b c d : ℝ) : Measurable (Textbook.trapezoid a b c d) :=
  Measurable.ite measurableSet_Iio measurable_const (Measurable.ite measurableSet_Iio (by fun_prop)
    (Measurable.ite measurableSet_Iio measurable_const (Measurable.ite measurableSet_Iio (by fun_prop) measurable_const)))

theorem trapezoid_nonneg {a b c d : ℝ} (x : ℝ) : 0 ≤ Textbook.trapezoid a b c d x := by
  rw [Textbook.trapezoid]
  split_ifs with h1 h2 h3 h4
  · exact le_rfl
  · push Not at h1
    exact div_nonneg (by linarith) (by linarith)
  · exact zero_le_one
  · push Not at h3
    exact div_nonneg (by linarith) (by linarith)
  · exact le_rfl

theorem integral_trapezoid {a b c d : ℝ} (hab : a ≤ b) (hbc : b ≤ c) (hcd : c ≤ d) :
    ∫ x, Textbook.trapezoid a b c d x = (d + c - (b + a)) / 2 := by
  obtain ⟨T, hT⟩ : ∃ T, T = Textbook.trapezoid a b c d := ⟨_, rfl⟩
  have h1 : EqOn (fun x => (x - a) / (b - a)) T (Ioo a b) := by
    intro x hx
    simp only [hT, Textbook.trapezoid]
    rw [if_neg (not_lt.2 hx.1.le), if_pos hx.2]
  have h2 : EqOn (fun _ => (1:ℝ)) T (Ioo b c) := by
    intro x hx
    simp only [hT, Textbook.trapezoid]
    rw [if_neg (not_lt.2 (hab.trans hx.1.le)), if_neg (not_lt.2 hx.1.le), if_pos hx.2]
  have h3 : EqOn (fun x => (d - x) / (d - c)) T (Ioo c d) := by
    intro x hx
    simp only [hT, Textbook.trapezoid]
    rw [if_neg (not_lt.2 ((hab.trans hbc).trans hx.1.le)), if_neg (not_lt.2 (hbc.trans hx.1.le)),
      if_neg (not_lt.2 hx.1.le), if_pos hx.2]
  have i1 : IntervalIntegrable T volume a b :=
    IntervalIntegrable.congr_uIoo (f := fun x => (x - a) / (b - a)) (Continuous.intervalIntegrable (by fun_prop) _ _)
      (by rw [uIoo_of_le hab]; exact h1)
  have i2 : IntervalIntegrable T volume b c :=
    IntervalIntegrable.congr_uIoo (f := fun _ => (1:ℝ)) (Continuous.intervalIntegrable (by fun_prop) _ _)
      (by rw [uIoo_of_le hbc]; exact h2)
  have i3 : IntervalIntegrable T volume c d :=
    IntervalIntegrable.congr_uIoo (f := fun x => (d - x) / (d - c)) (Continuous.intervalIntegrable (by fun_prop) _ _)
      (by rw [uIoo_of_le hcd]; exact h3)
  have e1 : ∫ x in a..b, T x = (b - a) / 2 := by
    rw [← intervalIntegral.integral_congr_Ioo_of_le hab h1, intervalIntegral.integral_div,
      intervalIntegral.integral_comp_sub_right (fun x => x) a, integral_id]
    rcases eq_or_ne b a with h | h
    · simp [h]
    · have : b - a ≠ 0 := sub_ne_zero.2 h
      field_simp
      ring
  have e2 : ∫ x in b..c, T x = c - b := by
    rw [← intervalIntegral.integral_congr_Ioo_of_le hbc h2]
    simp
  have e3 : ∫ x in c..d, T x = (d - c) / 2 := by
    rw [← intervalIntegral.integral_congr_Ioo_of_le hcd h3, intervalIntegral.integral_div,
      intervalIntegral.integral_comp_sub_left (fun x => x) d, integral_id]
    rcases eq_or_ne d c with h | h
    · simp [h]
    · have : d - c ≠ 0 := sub_ne_zero.2 h
      field_simp
      ring
  rw [Textbook.integral_of_support (f := Textbook.trapezoid a b c d) measurableSet_Ico (S := Ico a d), ← hT,
    integral_Ico_eq_integral_Ioc, ← intervalIntegral.integral_of_le (hab.trans (hbc.trans hcd)),
    ← intervalIntegral.integral_add_adjacent_intervals i1 (i2.trans i3),
    ← intervalIntegral.integral_add_adjacent_intervals i2 i3, e1, e2, e3]
  · ring
  · intro x hx
    rw [Textbook.trapezoid]
    by_cases h : x < a
    · rw [if_pos h]
    · have hd : ¬ x < d := fun h' => hx ⟨not_lt.1 h, h'⟩
      rw [if_neg h, if_neg (fun h' => hd (h'.trans_le (hbc.trans hcd))), if_neg (fun h' => hd (h'.trans_le hcd)), if_neg hd]

theorem chain_opt {f : ℝ → ℝ} {a b : ℝ} {hi : Ext ℝ} (s : Seg ℝ) (hd : s.isDirac = false) (hlo : s.lo = .fin a)
    (hhi : s.hi = .fin b) (hab : a ≤ b) (hf : ∀ x, a ≤ x → x < b → s.fn x = f x) {l : PF ℝ}
    (hl : Chain f (.fin b) hi l ∨ (l = [] ∧ hi = .fin b)) :
    Chain f (.fin a) hi ((if a < b then [s] else []) ++ l) ∨
      ((if a < b then [s] else []) ++ l = [] ∧ hi = .fin a) := by
  by_cases h : a < b
  · rw [if_pos h]
    have hf' : ∀ᵐ x : ℝ, s.lo ≤ .fin x → .fin x < s.hi → s.fn x = f x := by
      rw [hlo, hhi]
      exact Eventually.of_forall fun x h1 h2 => hf x (Ext.fin_le_fin.1 h1) (Ext.fin_lt_fin.1 h2)
    have hlt : s.lo < s.hi := by rw [hlo, hhi]; exact Ext.fin_lt_fin.2 h
    refine Or.inl ?_
    rcases hl with hl | ⟨rfl, rfl⟩
    · rw [← hlo]
      rw [← hhi] at hl
      exact Chain.cons s hd hlt hf' hl
    · rw [← hlo, ← hhi]
      exact Chain.one s hd hlt hf'
  · have : a = b := le_antisymm hab (not_lt.1 h)
    subst this
    rw [if_neg h]
    simpa using hl

end Pacal.Standard
