import Verif.Law.Arrays

/-! Lemmas on masked assignments -/

namespace Pacal
namespace PF

/-- `y[m(x)] = f(x[m(x)])` for arrays whose entries are `g(x)` -/
theorem putMask_map (int : Bool) (m : ℝ → Bool) (f g : ℝ → ℝ) (xs : List ℝ) :
    putMask int (xs.map m) (xs.map g) ((select (xs.map m) xs).map f) = xs.map fun x => if m x then storeAs int (f x) else g x := by
  induction xs with
  | nil => rfl
  | cons x xs ih => cases h : m x <;> simp [h, putMask, select, ih]

theorem callLoop_map (int : Bool) (xs : List ℝ) (l : PF ℝ) (g : ℝ → ℝ) :
    callLoop int xs l (xs.map fun x => storeAs int (g x)) = xs.map fun x => storeAs int (evalVecLoop x l (g x)) := by
  induction l generalizing g with
  | nil => rfl
  | cons s l ih =>
    classical
    have e : (if (maskOf s xs).any id then putMask int (maskOf s xs) (xs.map fun x => storeAs int (g x))
        ((select (maskOf s xs) xs).map s.fn) else xs.map fun x => storeAs int (g x)) =
        xs.map fun x => storeAs int (if s.lo ≤ .fin x ∧ .fin x < s.hi then s.fn x else g x) := by
      split_ifs with h
      · unfold maskOf
        rw [putMask_map]
        refine List.map_congr_left fun x _ => ?_
        by_cases h1 : s.lo ≤ .fin x <;> by_cases h2 : .fin x < s.hi <;> simp [h1, h2]
      · refine List.map_congr_left fun x hx => ?_
        rw [if_neg]
        rintro ⟨h1, h2⟩
        exact h (List.any_eq_true.2 ⟨true, List.mem_map.2 ⟨x, hx, by simp [h1, h2]⟩, rfl⟩)
    unfold callLoop
    simp only
    rw [e, ih]
    rfl

theorem storeAs_zero (int : Bool) : storeAs int 0 = 0 := by cases int <;> simp [storeAs]

theorem callArray_map (int : Bool) (l : PF ℝ) (xs : List ℝ) : callArray int l xs = xs.map fun x => storeAs int (evalVec l x) := by
  classical
  have e := callLoop_map int xs (segs l) fun _ => 0
  rw [storeAs_zero] at e
  unfold callArray evalVec
  simp only
  rw [e]
  cases (segs l).getLast? with
  | none => rfl
  | some s =>
    simp only
    rw [putMask_map]
    refine List.map_congr_left fun x _ => ?_
    by_cases h : Ext.fin x = s.hi <;> simp [h]

end PF
end Pacal
