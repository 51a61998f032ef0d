import Verif.Conv.SumPair

/-! The law of the minimum and of the maximum, for both at once: `op x y` is the argument the other one lies "behind". -/

namespace Pacal
namespace Conv
open MeasureTheory Set

/-- `op x y` is `x` if `y ∈ T x` and `y` if `x ∈ T y`; `min` with `T x = (x, ∞)`, `max` with `T x = (-∞, x)` -/
structure Tail (op : ℝ → ℝ → ℝ) (T : ℝ → Set ℝ) : Prop where
  meas : Measurable fun p : ℝ × ℝ => op p.1 p.2
  mset : MeasurableSet {p : ℝ × ℝ | p.2 ∈ T p.1}
  irrefl : ∀ x, x ∉ T x
  cases : ∀ x y, x = y ∨ (y ∈ T x ∧ x ∉ T y) ∨ (x ∈ T y ∧ y ∉ T x)
  left : ∀ x y, y ∈ T x → op x y = x
  right : ∀ x y, x ∈ T y → op x y = y
  self : ∀ x, op x x = x

theorem tailMin : Tail min Ioi where
  meas := measurable_fst.min measurable_snd
  mset := measurableSet_lt measurable_fst measurable_snd
  irrefl x := lt_irrefl x
  cases x y := by
    rcases lt_trichotomy x y with h | h | h
    · exact .inr (.inl ⟨h, not_lt.2 h.le⟩)
    · exact .inl h
    · exact .inr (.inr ⟨h, not_lt.2 h.le⟩)
  left x y h := min_eq_left (le_of_lt h)
  right x y h := min_eq_right (le_of_lt h)
  self x := min_self x

theorem tailMax : Tail max Iio where
  meas := measurable_fst.max measurable_snd
  mset := measurableSet_lt measurable_snd measurable_fst
  irrefl x := lt_irrefl x
  cases x y := by
    rcases lt_trichotomy x y with h | h | h
    · exact .inr (.inr ⟨h, not_lt.2 h.le⟩)
    · exact .inl h
    · exact .inr (.inl ⟨h, not_lt.2 h.le⟩)
  left x y h := max_eq_left (le_of_lt h)
  right x y h := max_eq_right (le_of_lt h)
  self x := max_self x

variable {op : ℝ → ℝ → ℝ} {T : ℝ → Set ℝ}

theorem Tail.mset_apply (h : Tail op T) (x : ℝ) : MeasurableSet (T x) := measurable_prodMk_left h.mset

theorem Tail.meas_tail (h : Tail op T) (μ : Measure ℝ) [SFinite μ] : Measurable fun x => μ (T x) :=
  measurable_measure_prodMk_left h.mset

theorem meas_singleton (μ : Measure ℝ) [SFinite μ] : Measurable fun x => μ {x} := by
  have := measurable_measure_prodMk_left (ν := μ) (s := {p : ℝ × ℝ | p.2 = p.1}) (measurableSet_eq_fun measurable_snd measurable_fst)
  exact this

/-- the value is the first variable, or the second, or both -/
theorem opLaw_tail (h : Tail op T) (μ ν : Measure ℝ) [SFinite μ] [SFinite ν] :
    opLaw op μ ν = (μ.withDensity fun x => ν (T x)) + (ν.withDensity fun y => μ (T y)) + μ.withDensity fun x => ν {x} := by
  ext A hA
  have m1 : MeasurableSet {p : ℝ × ℝ | p.2 ∈ T p.1 ∧ p.1 ∈ A} := h.mset.inter (measurable_fst hA)
  have m2 : MeasurableSet {p : ℝ × ℝ | p.1 ∈ T p.2 ∧ p.2 ∈ A} := (measurable_swap h.mset).inter (measurable_snd hA)
  have m3 : MeasurableSet {p : ℝ × ℝ | p.2 = p.1 ∧ p.1 ∈ A} :=
    (measurableSet_eq_fun measurable_snd measurable_fst).inter (measurable_fst hA)
  have e : (fun p : ℝ × ℝ => op p.1 p.2) ⁻¹' A =
      ({p : ℝ × ℝ | p.2 ∈ T p.1 ∧ p.1 ∈ A} ∪ {p : ℝ × ℝ | p.1 ∈ T p.2 ∧ p.2 ∈ A}) ∪ {p : ℝ × ℝ | p.2 = p.1 ∧ p.1 ∈ A} := by
    ext ⟨x, y⟩
    simp only [mem_preimage, mem_union, mem_ofPred_eq]
    rcases h.cases x y with rfl | ⟨h1, h2⟩ | ⟨h1, h2⟩
    · simp [h.self, h.irrefl]
    · have : y ≠ x := by rintro rfl; exact h2 h1
      simp [h.left _ _ h1, h1, h2, this]
    · have : y ≠ x := by rintro rfl; exact h2 h1
      simp [h.right _ _ h1, h1, h2, this]
  have d1 : Disjoint ({p : ℝ × ℝ | p.2 ∈ T p.1 ∧ p.1 ∈ A} ∪ {p : ℝ × ℝ | p.1 ∈ T p.2 ∧ p.2 ∈ A}) {p : ℝ × ℝ | p.2 = p.1 ∧ p.1 ∈ A} := by
    rw [Set.disjoint_left]
    rintro ⟨x, y⟩ (⟨h1, -⟩ | ⟨h1, -⟩) ⟨h2, -⟩ <;> dsimp only at h1 h2 <;> subst h2 <;> exact h.irrefl _ h1
  have d2 : Disjoint {p : ℝ × ℝ | p.2 ∈ T p.1 ∧ p.1 ∈ A} {p : ℝ × ℝ | p.1 ∈ T p.2 ∧ p.2 ∈ A} := by
    rw [Set.disjoint_left]
    rintro ⟨x, y⟩ ⟨h1, -⟩ ⟨h2, -⟩
    dsimp only at h1 h2
    rcases h.cases x y with rfl | ⟨h3, h4⟩ | ⟨h3, h4⟩
    · exact h.irrefl _ h1
    · exact h4 h2
    · exact h4 h1
  have key : ∀ (ρ σ : Measure ℝ) [SFinite σ] (C : ℝ → Set ℝ), (∀ x, MeasurableSet (C x)) →
      (∀ S : Set (ℝ × ℝ), MeasurableSet S → (∀ x, Prod.mk x ⁻¹' S = {y | y ∈ C x ∧ x ∈ A}) → (ρ.prod σ) S = ∫⁻ x in A, σ (C x) ∂ρ) := by
    intro ρ σ _ C hC S hS hSx
    rw [Measure.prod_apply hS, ← lintegral_indicator hA]
    refine lintegral_congr fun x => ?_
    rw [hSx]
    by_cases hx : x ∈ A <;> simp [hx]
  rw [opLaw, Measure.map_apply h.meas hA, e, measure_union d1 m3, measure_union d2 m2, Measure.add_apply, Measure.add_apply,
    withDensity_apply _ hA, withDensity_apply _ hA, withDensity_apply _ hA]
  congr 1
  · congr 1
    · exact key μ ν T h.mset_apply _ m1 fun x => rfl
    · rw [← Measure.prod_swap, Measure.map_apply measurable_swap m2]
      exact key ν μ T h.mset_apply _ (measurable_swap m2) fun x => rfl
  · exact key μ ν (fun x => {x}) measurableSet_singleton _ m3 fun x => rfl

end Conv
end Pacal
