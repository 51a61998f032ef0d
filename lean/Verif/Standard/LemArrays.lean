import Verif.Standard.Arrays
import Verif.Standard.ArraysSpec
import Verif.Standard.LemD

/-! Lemmas about assignments to parts of arrays. -/

namespace Pacal.Standard
open Real

theorem store_false (v : Flt) : store false v = v := by
  cases v <;> simp [store]

theorem place_map (mask : ℝ → Bool) (y f : ℝ → Flt) : ∀ xs : List ℝ,
    place false mask xs (xs.map y) ((xs.filter mask).map f) = xs.map fun x => if mask x then f x else y x
  | [] => rfl
  | x :: xs => by
    have ih := place_map mask y f xs
    by_cases h : mask x = true
    · rw [List.filter_cons_of_pos h]
      simp only [List.map_cons, place, h, if_true, store_false, ih]
    · rw [List.filter_cons_of_neg h]
      simp only [List.map_cons, place, if_neg h, ih]

theorem masked_eq (mask : ℝ → Bool) (f : ℝ → Flt) (xs : List ℝ) :
    masked false mask f xs = .ok (xs.map fun x => if mask x then f x else Flt.real 0) := by
  unfold masked put
  dsimp only
  rw [if_pos (List.length_map _), zerosLike, place_map]

theorem putNum_eq (mask : ℝ → Bool) (y : ℝ → Flt) (c : Flt) (xs : List ℝ) :
    putNum false mask xs (xs.map y) c = xs.map fun x => if mask x then c else y x := by
  have := place_map mask y (fun _ => c) xs
  rw [List.map_const'] at this
  exact this

theorem unmasked_eq (mask : ℝ → Bool) (f : ℝ → Flt) (xs : List ℝ) (h : ∀ x ∈ xs, mask x = true) :
    unmasked false mask f xs = .ok (xs.map f) := by
  have hf : xs.filter mask = xs := List.filter_eq_self.2 h
  have : unmasked false mask f xs = masked false mask f xs := by unfold unmasked masked; rw [hf]
  rw [this, masked_eq]
  congr 1
  exact List.map_congr_left fun x hx => by rw [if_pos (h x hx)]

theorem elementwise_map {f : ℝ → Except PyErr Flt} {g : List ℝ → Except PyErr (List Flt)} {xs : List ℝ} {h : ℝ → Flt}
    (hg : g xs = .ok (xs.map h)) (hf : ∀ x ∈ xs, f x = .ok (h x)) : Elementwise f g xs :=
  ⟨_, hg, List.forall₂_map_right_iff.2 (List.forall₂_same.2 hf)⟩

theorem isLog_logF {p : Flt} {v : EReal} (hp : p = some v) (h : 0 ≤ v) : IsLog p p.logF := by
  subst hp
  induction v with
  | bot => exact absurd h (by simp)
  | top => simp [Flt.logF]; exact .inf
  | coe r =>
    have hr : 0 ≤ r := EReal.coe_nonneg.1 h
    rcases hr.eq_or_lt with rfl | hr
    · simp [Flt.logF, Flt.log]; exact .zero
    · simp [Flt.logF, Flt.log, hr]; exact .pos hr

theorem isLog_exp (a : ℝ) : IsLog (Flt.real (exp a)) (Flt.real a) := by
  have := IsLog.pos (exp_pos a)
  rwa [Real.log_exp] at this

end Pacal.Standard
