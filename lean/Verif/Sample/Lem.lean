import Verif.Sample.Spec
import Verif.Law.LemArrays
import Mathlib.Tactic.FieldSimp

/-! Lemmas on samples of functions of variables -/

namespace Pacal.Sample
open Real

theorem branchLoop_map (f : ℝ → ℝ) (xs : List ℝ) (l : List (ℝ × ℝ)) (g : ℝ → ℝ) (h : ℝ → Prop) [DecidablePred h]
    (hg : ∀ x ∈ xs, g x = if h x then f x else 0) :
    branchLoop f xs l (xs.map g) = xs.map fun x =>
      open Classical in if h x ∨ ∃ p ∈ l, p.1 ≤ x ∧ x ≤ p.2 then f x else 0 := by
  classical
  induction l generalizing g h with
  | nil =>
    refine List.map_congr_left fun x hx => ?_
    rw [hg x hx]
    simp
  | cons p l ih =>
    obtain ⟨a, b⟩ := p
    unfold branchLoop
    simp only
    rw [PF.putMask_map, ih _ (fun x => h x ∨ (a ≤ x ∧ x ≤ b))]
    · refine List.map_congr_left fun x hx => ?_
      simp [or_assoc]
    · intro x hx
      rw [hg x hx]
      by_cases h1 : a ≤ x <;> by_cases h2 : x ≤ b <;> by_cases h3 : h x <;> simp [h1, h2, h3, PF.storeAs]

/-- what the loop over the branches computes -/
theorem noninjective_map (l : List (ℝ × ℝ)) (f : ℝ → ℝ) (xs : List ℝ) :
    noninjective l f xs = xs.map fun x => open Classical in if ∃ p ∈ l, p.1 ≤ x ∧ x ≤ p.2 then f x else 0 := by
  unfold noninjective
  rw [branchLoop_map f xs l (fun _ => 0) (fun _ => False) (by simp)]
  refine List.map_congr_left fun x _ => ?_
  congr 1
  simp

theorem sigmoid_map (xs : List ℝ) : sigmoidArray xs = xs.map fun x => 1 / (1 + Real.exp (-x)) := by
  classical
  unfold sigmoidArray
  simp only [List.map_map]
  rw [PF.putMask_map, PF.putMask_map]
  refine List.map_congr_left fun x _ => ?_
  by_cases h : x > 0
  · simp [h, PF.storeAs]
  · have : Real.exp x ≠ 0 := (Real.exp_pos x).ne'
    simp [h, PF.storeAs, Real.exp_neg]
    field_simp

theorem rand1_map (o : Op1) (xs : List ℝ) (h : ∀ x ∈ xs, o.Defined x) : o.rand xs = xs.map o.fn := by
  cases o with
  | sigmoid => exact sigmoid_map xs
  | inv => simp [Op1.rand, Op1.fn]
  | square =>
    simp only [Op1.rand, List.zipWith_self]
    exact List.map_congr_left fun x _ => (sq x).symm
  | shifted a b => simp [Op1.rand, Op1.fn]
  | sin =>
    rw [Op1.rand, noninjective_map]
    refine List.map_congr_left fun x hx => if_pos ?_
    obtain ⟨h1, h2⟩ := h x hx
    rcases le_total x (π / 2) with h3 | h3
    · exact ⟨_, List.mem_cons_self, h1, h3⟩
    · exact ⟨_, List.mem_cons_of_mem _ List.mem_cons_self, h3, h2⟩
  | cos =>
    rw [Op1.rand, noninjective_map]
    refine List.map_congr_left fun x hx => if_pos ?_
    obtain ⟨h1, h2⟩ := h x hx
    rcases le_total x π with h3 | h3
    · exact ⟨_, List.mem_cons_self, h1, h3⟩
    · exact ⟨_, List.mem_cons_of_mem _ List.mem_cons_self, h3, h2⟩
  | _ => rfl

theorem rand2_map (o : Op2) {α : Type} (f g : α → ℝ) (l : List α) : o.rand (l.map f) (l.map g) = l.map fun j => o.fn (f j) (g j) := by
  cases o <;> simp [Op2.rand, Op2.fn, List.zipWith_map, List.zipWith_self, min_def, max_def]

end Pacal.Sample
