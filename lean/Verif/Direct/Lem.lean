import Verif.Direct.Spec
import Verif.Push.BuiltinLemmas
import Mathlib.MeasureTheory.Function.Jacobian
import Mathlib.MeasureTheory.Function.JacobianOneDim
import Mathlib.Analysis.SpecialFunctions.Trigonometric.ArctanDeriv

/-! Lemmas for C100. -/

namespace Pacal.Direct
open MeasureTheory Set Real

/-! ### Change of variables -/

/-- the density of the image of the part of a distribution in `D` -/
theorem push {f g h h' : ℝ → ℝ} {D R : Set ℝ} (hD : MeasurableSet D) (hR : MeasurableSet R) (hg : Measurable g)
    (H : InverseOn g h h' D R) :
    ((volume.withDensity fun x => ENNReal.ofReal (f x)).restrict D).map g =
      volume.withDensity fun y => ENNReal.ofReal (R.indicator (fun y => f (h y) * |h' y|) y) := by
  ext A hA
  rw [Measure.map_apply hg hA, Measure.restrict_apply (hg hA), withDensity_apply _ ((hg hA).inter hD),
    withDensity_apply _ hA]
  have e : g ⁻¹' A ∩ D = h '' (A ∩ R) := by
    ext x
    constructor
    · rintro ⟨h1, h2⟩
      exact ⟨g x, ⟨h1, (H.1 x h2).1⟩, (H.1 x h2).2⟩
    · rintro ⟨y, ⟨h1, h2⟩, rfl⟩
      refine ⟨?_, (H.2 y h2).1⟩
      rw [mem_preimage, (H.2 y h2).2.1]
      exact h1
  have hi : InjOn h (A ∩ R) := by
    intro x hx y hy hxy
    rw [← (H.2 x hx.2).2.1, ← (H.2 y hy.2).2.1, hxy]
  rw [e, lintegral_image_eq_lintegral_abs_deriv_mul (hA.inter hR)
    (fun y hy => ((H.2 y hy.2).2.2).hasDerivWithinAt) hi]
  have e2 : (fun y => ENNReal.ofReal (R.indicator (fun y => f (h y) * |h' y|) y)) =
      R.indicator fun y => ENNReal.ofReal |h' y| * ENNReal.ofReal (f (h y)) := by
    funext y
    by_cases hy : y ∈ R
    · rw [indicator_of_mem hy, indicator_of_mem hy, mul_comm, ENNReal.ofReal_mul (abs_nonneg _)]
    · rw [indicator_of_notMem hy, indicator_of_notMem hy, ENNReal.ofReal_zero]
  rw [e2, setLIntegral_indicator hR, inter_comm]

/-- what holds almost everywhere in `D` holds almost everywhere in `R` after going back -/
theorem pull {g h h' : ℝ → ℝ} {D R : Set ℝ} (hd : DifferentiableOn ℝ g D) (H : InverseOn g h h' D R) {P : ℝ → Prop}
    (hP : ∀ᵐ x, P x) : ∀ᵐ y, y ∈ R → P (h y) := by
  rw [ae_iff] at hP ⊢
  have h1 : volume (g '' ({x | ¬ P x} ∩ D)) = 0 :=
    addHaar_image_eq_zero_of_differentiableOn_of_addHaar_eq_zero volume (hd.mono inter_subset_right)
      (measure_mono_null inter_subset_left hP)
  refine measure_mono_null ?_ h1
  intro y hy
  simp only [Classical.not_imp, mem_setOf_eq] at hy
  exact ⟨h y, ⟨hy.2, (H.2 y hy.1).1⟩, (H.2 y hy.1).2.1⟩

/-! ### Where the methods answer -/

theorem ok_bind {α β : Type} (a : α) (k : α → Except PyErr β) : (Except.ok a >>= k) = k a := rfl

theorem answers (e : Expr) (hs : e.Safe) :
    (∀ v, ∃ y, e.pdf ⟨v, true⟩ = .ok y) ∧ (e.NoReciprocal → ∀ v np, ∃ y, e.pdf ⟨v, np⟩ = .ok y) := by
  induction e with
  | base p => exact ⟨fun v => ⟨_, rfl⟩, fun _ v np => ⟨_, rfl⟩⟩
  | shifted s c d ih =>
    obtain ⟨h1, h2⟩ := ih hs
    refine ⟨fun v => ?_, fun hn v np => ?_⟩
    · obtain ⟨y, hy⟩ := h1 (v.map fun x => (x - s) * oneScale c)
      exact ⟨_, by rw [Expr.pdf, hy, ok_bind]; rfl⟩
    · obtain ⟨y, hy⟩ := h2 hn (v.map fun x => (x - s) * oneScale c) np
      exact ⟨_, by rw [Expr.pdf, hy, ok_bind]; rfl⟩
  | inv d ih =>
    obtain ⟨h1, -⟩ := ih hs
    refine ⟨fun v => ?_, fun hn => hn.elim⟩
    rcases v with _ | v
    · obtain ⟨y, hy⟩ := h1 none
      exact ⟨none, by simp only [Expr.pdf]; rw [hy]; rfl⟩
    · by_cases h0 : v = 0
      · obtain ⟨y, hy⟩ := h1 none
        exact ⟨none, by simp only [Expr.pdf, if_pos h0, if_true]; rw [hy]; rfl⟩
      · obtain ⟨y, hy⟩ := h1 (some (1.0 / v))
        exact ⟨_, by simp only [Expr.pdf, if_neg h0]; rw [hy]; rfl⟩
  | abs d ih =>
    obtain ⟨h1, h2⟩ := ih hs
    have key : ∀ v np, (∀ w, ∃ y, d.pdf ⟨w, np⟩ = .ok y) → ∃ y, (Expr.abs d).pdf ⟨v, np⟩ = .ok y := by
      intro v np h
      by_cases h0 : ∃ w, v = some w ∧ w < 0
      · exact ⟨some 0, by simp only [Expr.pdf, if_pos h0]; rfl⟩
      · obtain ⟨y, hy⟩ := h (v.map fun x => -x)
        obtain ⟨z, hz⟩ := h v
        exact ⟨_, by simp only [Expr.pdf, if_neg h0]; rw [hy, hz]; rfl⟩
    exact ⟨fun v => key v true h1, fun hn v np => key v np fun w => h2 hn w np⟩
  | square d ih =>
    obtain ⟨h1, -⟩ := ih hs
    have key : ∀ v np, ∃ y, (Expr.square d).pdf ⟨v, np⟩ = .ok y := by
      intro v np
      rcases v with _ | v
      · obtain ⟨y, hy⟩ := h1 none
        exact ⟨none, by simp only [Expr.pdf]; rw [hy]; rfl⟩
      · by_cases h0 : v ≤ 0
        · exact ⟨some 0, by simp only [Expr.pdf, if_pos h0]; rfl⟩
        · obtain ⟨y, hy⟩ := h1 (some (-√v))
          obtain ⟨z, hz⟩ := h1 (some (√v))
          exact ⟨_, by simp only [Expr.pdf, if_neg h0]; rw [hy, hz]; rfl⟩
    exact ⟨fun v => key v true, fun _ v np => key v np⟩
  | func F d ih =>
    obtain ⟨h1, h2⟩ := ih hs.2
    have hin : ∀ v, ∃ y, d.pdf (F.inv v) = .ok y := by
      intro v
      rcases F
      · exact h1 _
      · exact h1 _
      · exact h2 (hs.1 (by simp)) _ _
      · exact h2 (hs.1 (by simp)) _ _
      · have := h2 (hs.1 (by simp))
        simp only [Func.inv]
        split_ifs <;> exact this _ _
      · exact h1 _
    have key : ∀ v np, (∀ x, v = some x → ∃ y, F.invDeriv x np = .ok y) → ∃ y, (Expr.func F d).pdf ⟨v, np⟩ = .ok y := by
      intro v np h
      rcases v with _ | v
      · obtain ⟨y, hy⟩ := h1 none
        exact ⟨_, by simp only [Expr.pdf]; rw [hy]; rfl⟩
      · obtain ⟨y, hy⟩ := hin v
        obtain ⟨z, hz⟩ := h v rfl
        exact ⟨_, by simp only [Expr.pdf]; rw [hy, ok_bind, hz]; rfl⟩
    refine ⟨fun v => key v true fun x _ => ?_, fun hn v np => key v np fun x _ => ?_⟩
    · rcases F <;> simp only [Func.invDeriv] <;> first | exact ⟨_, rfl⟩ | (split_ifs <;> exact ⟨_, rfl⟩)
    · rcases F <;> first | exact (hn : False).elim | exact ⟨_, rfl⟩

theorem quiet_of_sound {μ} (e : Expr) (hd : e.Sound μ) : e.Quiet := by
  induction e with
  | base p => exact hd.2
  | shifted s c d ih => exact ih hd.2
  | func F d ih => exact ih hd.2
  | inv d ih => exact ih hd
  | abs d ih => exact ih hd
  | square d ih => exact ih hd

/-- asked for nan every distribution answers nan or 0 -/
theorem silent (e : Expr) (hs : e.Safe) (hd : e.Quiet) :
    e.pdf ⟨none, true⟩ = .ok none ∨ e.pdf ⟨none, true⟩ = .ok (some 0) := by
  induction e with
  | base p => exact hd.imp (fun h => by rw [Expr.pdf, h]) fun h => by rw [Expr.pdf, h]
  | shifted s c d ih =>
    rcases ih hs hd with h | h
    · left; simp only [Expr.pdf, Option.map_none]; rw [h]; rfl
    · right; simp only [Expr.pdf, Option.map_none]; rw [h]
      show Except.ok (some (|oneScale c| * 0)) = _
      rw [mul_zero]
  | inv d ih =>
    obtain ⟨y, hy⟩ := (answers d hs).1 none
    left; simp only [Expr.pdf]; rw [hy]; rfl
  | abs d ih =>
    have h0 : ¬ ∃ v : ℝ, (none : Option ℝ) = some v ∧ v < 0 := by rintro ⟨v, h, -⟩; cases h
    rcases ih hs hd with h | h
    · left; simp only [Expr.pdf, if_neg h0, Option.map_none]; rw [h]; rfl
    · right; simp only [Expr.pdf, if_neg h0, Option.map_none]; rw [h]
      show Except.ok (some ((0 : ℝ) + 0)) = _
      rw [add_zero]
  | square d ih =>
    obtain ⟨y, hy⟩ := (answers d hs).1 none
    left; simp only [Expr.pdf]; rw [hy]; rfl
  | func F d ih =>
    obtain ⟨y, hy⟩ := (answers d hs.2).1 none
    right; simp only [Expr.pdf]; rw [hy]
    show Except.ok (some ((both _ y none).getD 0)) = _
    cases y <;> rfl

end Pacal.Direct
