import Verif.Standard.Integrals
import Verif.Standard.LemB

/-!
Lemmas for `Verif.Standard.PropsC`.
-/

namespace Pacal.Standard
open MeasureTheory Real Filter Topology

theorem rep_textbook {f : ℝ → ℝ} {lo hi : Ext ℝ} {l : PF ℝ} (h : Chain f lo hi l) {eps : ℝ} (he : 0 ≤ eps)
    (hm : Measurable f) (hnn : ∀ x, 0 ≤ f x) (h0 : ∀ x ∉ ext lo hi, f x = 0) (h1 : ∫ x, f x = 1) :
    Rep eps (PF.addAll eps [] l) (Textbook.law f) ∧ IsProbabilityMeasure (Textbook.law f) := by
  have hp := prob_of_integral hnn h1
  exact ⟨h.rep_density he hm hnn h0 inferInstance, hp⟩

theorem measurable_levy (c m : ℝ) : Measurable (Textbook.levy c m) :=
  Measurable.ite measurableSet_Ioi (by fun_prop) measurable_const

theorem levy_nonneg (c m x : ℝ) : 0 ≤ Textbook.levy c m x := by
  rw [Textbook.levy]
  split_ifs with h
  · have : 0 < x - m := sub_pos.2 h
    positivity
  · exact le_rfl

theorem measurable_laplace (b m : ℝ) : Measurable (Textbook.laplace b m) := by
  unfold Textbook.laplace
  fun_prop

theorem measurable_studentT (v : ℝ) : Measurable (Textbook.studentT v) := by
  unfold Textbook.studentT
  fun_prop

theorem measurable_semicircle (R : ℝ) : Measurable (Textbook.semicircle R) :=
  Measurable.ite (measurableSet_le (by fun_prop) measurable_const) (by fun_prop) measurable_const

theorem measurable_fisher (d₁ d₂ : ℝ) : Measurable (Textbook.fisher d₁ d₂) :=
  Measurable.ite measurableSet_Ioi (by fun_prop) measurable_const

theorem fisher_nonneg {d₁ d₂ : ℝ} (h₁ : 0 < d₁) (h₂ : 0 < d₂) (x : ℝ) : 0 ≤ Textbook.fisher d₁ d₂ x := by
  rw [Textbook.fisher]
  split_ifs with h
  · have := ProbabilityTheory.beta_pos (half_pos h₁) (half_pos h₂)
    positivity
  · exact le_rfl

theorem measurable_weibull (k l : ℝ) : Measurable (Textbook.weibull k l) :=
  Measurable.ite measurableSet_Ioi (by fun_prop) measurable_const

theorem weibull_nonneg {k l : ℝ} (hk : 0 < k) (hl : 0 < l) (x : ℝ) : 0 ≤ Textbook.weibull k l x := by
  rw [Textbook.weibull]
  split_ifs with h
  · positivity
  · exact le_rfl

theorem measurable_frechet (a s m : ℝ) : Measurable (Textbook.frechet a s m) :=
  Measurable.ite measurableSet_Ioi (by fun_prop) measurable_const

theorem frechet_nonneg {a s : ℝ} (ha : 0 < a) (hs : 0 < s) (m x : ℝ) : 0 ≤ Textbook.frechet a s m x := by
  rw [Textbook.frechet]
  split_ifs with h
  · have : 0 < x - m := sub_pos.2 h
    positivity
  · exact le_rfl

theorem measurable_logLogistic (k s : ℝ) : Measurable (Textbook.logLogistic k s) :=
  Measurable.ite measurableSet_Ioi (by fun_prop) measurable_const

theorem logLogistic_nonneg {k s : ℝ} (hk : 0 < k) (hs : 0 < s) (x : ℝ) : 0 ≤ Textbook.logLogistic k s x := by
  rw [Textbook.logLogistic]
  split_ifs with h
  · positivity
  · exact le_rfl

/-- the library function meets its assumption -/
noncomputable def exactLg : ℝ → ℝ := fun x => log (Gamma x)

end Pacal.Standard
