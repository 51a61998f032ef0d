import Verif.Noisy.Spec
import Mathlib.MeasureTheory.Measure.Prod
import Mathlib.MeasureTheory.Group.LIntegral
import Mathlib.MeasureTheory.Measure.Lebesgue.EqHaar

/-!
Lemmas on noisy functions.
-/

open MeasureTheory ProbabilityTheory Set

namespace Pacal.Noisy

variable {Ω : Type*} [MeasurableSpace Ω] {n : ℕ} {o : Noisy n}

theorem fAB_bounds (h : RangeKnown o) {x : Fin n → ℝ} (hx : x ∈ Icc o.lo o.hi) : o.fAB.1 ≤ o.f x ∧ o.f x ≤ o.fAB.2 := by
  unfold RangeKnown at h
  unfold Noisy.fAB
  have hl : o.lo ∈ Icc o.lo o.hi := left_mem_Icc.2 (hx.1.trans hx.2)
  have hh : o.hi ∈ Icc o.lo o.hi := right_mem_Icc.2 (hx.1.trans hx.2)
  cases hr : o.fRange with
  | some r => simp only [hr] at h; exact h x hx
  | none =>
    simp only [hr] at h
    simp only
    rcases h with h | h
    · exact ⟨(min_le_left _ _).trans (h hl hx hx.1), (h hx hh hx.2).trans (le_max_right _ _)⟩
    · exact ⟨(min_le_right _ _).trans (h hx hh hx.2), (h hl hx hx.1).trans (le_max_left _ _)⟩

theorem pdf_point (x : Fin n → ℝ) (z : ℝ) (hg : GoodNoise o) : o.pdf (point x z) = o.noise (z - o.f x) := by
  have e : o.pdf (point x z) =
      open Classical in if o.na ≤ ((z - o.f x : ℝ) : EReal) ∧ ((z - o.f x : ℝ) : EReal) ≤ o.nb then o.noise (z - o.f x) else 0 := by
    rw [Noisy.pdf, point, Fin.snoc_last, Fin.init_snoc]
  rw [e]
  split_ifs with h
  · rfl
  · exact (hg.zero _ h).symm

theorem inside_iff (x : Fin n → ℝ) (z : ℝ) : (∀ i, o.a i ≤ (point x z i : EReal) ∧ (point x z i : EReal) ≤ o.b i) ↔
    x ∈ Icc o.lo o.hi ∧ o.valueLo ≤ z ∧ (z : EReal) ≤ o.valueHi := by
  constructor
  · intro h
    have hl := h (Fin.last n)
    simp only [point, Noisy.a, Noisy.b, Fin.snoc_last, Fin.lastCases_last] at hl
    refine ⟨⟨fun i => ?_, fun i => ?_⟩, hl⟩
    · have := (h i.castSucc).1
      simp only [point, Noisy.a, Fin.snoc_castSucc, Fin.lastCases_castSucc] at this
      exact EReal.coe_le_coe_iff.1 this
    · have := (h i.castSucc).2
      simp only [point, Noisy.b, Fin.snoc_castSucc, Fin.lastCases_castSucc] at this
      exact EReal.coe_le_coe_iff.1 this
  · rintro ⟨hx, hz⟩ i
    refine Fin.lastCases ?_ (fun i => ?_) i
    · simp only [point, Noisy.a, Noisy.b, Fin.snoc_last, Fin.lastCases_last]
      exact hz
    · simp only [point, Noisy.a, Noisy.b, Fin.snoc_castSucc, Fin.lastCases_castSucc]
      exact ⟨EReal.coe_le_coe_iff.2 (hx.1 i), EReal.coe_le_coe_iff.2 (hx.2 i)⟩

theorem call_point (hg : GoodNoise o) (h : RangeKnown o) {x : Fin n → ℝ} (hx : x ∈ Icc o.lo o.hi) (z : ℝ) :
    o.call (point x z) = o.noise (z - o.f x) := by
  rw [Noisy.call]
  split_ifs with hi
  · exact pdf_point x z hg
  · rw [inside_iff] at hi
    refine (hg.zero _ fun hn => hi ⟨hx, ?_, ?_⟩).symm
    · calc o.valueLo ≤ ((z - o.f x : ℝ) : EReal) + (o.f x : ℝ) :=
            add_le_add hn.1 (EReal.coe_le_coe_iff.2 (fAB_bounds h hx).1)
        _ = z := by rw [← EReal.coe_add, sub_add_cancel]
    · calc (z : EReal) = ((z - o.f x : ℝ) : EReal) + (o.f x : ℝ) := by rw [← EReal.coe_add, sub_add_cancel]
        _ ≤ o.valueHi := add_le_add hn.2 (EReal.coe_le_coe_iff.2 (fAB_bounds h hx).2)

theorem shift_law {g : ℝ → ℝ} (c : ℝ) {C : Set ℝ} (hC : MeasurableSet C) :
    (volume.withDensity fun x => ENNReal.ofReal (g x)) {e | c + e ∈ C} = ∫⁻ z in C, ENNReal.ofReal (g (z - c)) := by
  have hm : MeasurableSet {e : ℝ | c + e ∈ C} := measurable_const_add c hC
  rw [withDensity_apply _ hm, ← lintegral_indicator hm, ← lintegral_indicator hC,
    ← lintegral_add_left_eq_self (fun z => C.indicator (fun z => ENNReal.ofReal (g (z - c))) z) c]
  refine lintegral_congr fun e => ?_
  by_cases he : c + e ∈ C
  · rw [indicator_of_mem he, indicator_of_mem (show e ∈ {e : ℝ | c + e ∈ C} from he), add_sub_cancel_left]
  · rw [indicator_of_notMem he, indicator_of_notMem (show e ∉ {e : ℝ | c + e ∈ C} from he)]

theorem assign_foldl {d : ℕ} (X : Fin d → ℝ) (l : List (Fin d)) (A : Fin d → Option ℝ) (i : Fin d) :
    ((l.zip (l.map X)).foldl (fun (A : Fin d → Option ℝ) (p : Fin d × ℝ) => Function.update A p.1 (some p.2)) A) i = if i ∈ l then some (X i) else A i := by
  induction l generalizing A with
  | nil => simp
  | cons k l ih =>
    simp only [List.map_cons, List.zip_cons_cons, List.foldl_cons, ih, List.mem_cons]
    by_cases hl : i ∈ l
    · simp [hl]
    · by_cases hk : i = k
      · subst hk; simp [hl]
      · simp [hl, hk, Function.update_of_ne]

theorem args_eq {d : ℕ} (X : Fin d → ℝ) (var : List (Fin d)) :
    args var (var.map X) (((List.finRange d).filter fun i => i ∉ var).map X) = fun i => some (X i) := by
  ext1 i
  simp only [args, assign_foldl, List.mem_filter, List.mem_finRange, true_and, decide_eq_true_eq]
  by_cases h : i ∈ var <;> simp [h]

theorem callOpt_eq (X : Fin (n + 1) → ℝ) : o.callOpt (fun i => some (X i)) = some (o.call X) := by
  rw [Noisy.callOpt, dif_pos (fun i => by simp)]
  rfl

end Pacal.Noisy
