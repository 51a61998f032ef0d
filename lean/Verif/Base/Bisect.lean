import Mathlib.Order.Basic
import Mathlib.Data.List.Basic
import Mathlib.Tactic.Ring
import Mathlib.Tactic.Linarith

/-!
Model of Python's standard `bisect` module (pure Python reference implementation), which
`/repo/pacal/segments.py` calls at lines 1093, 1094, 1099 and 1104.
-/

namespace Pacal

/-- The common loop of `bisect.bisect_left` / `bisect.bisect_right`:
`while lo < hi: mid = (lo+hi)//2; if p(a[mid]): lo = mid+1 else: hi = mid`.
`p y` is `y < x` for `bisect_left` and `not (x < y)` for `bisect_right`.
The fuel argument makes the `while` structural; `bisectBy` supplies `length + 1`, which always
suffices (see `bisectGo_spec`). -/
def bisectGo {α : Type*} (p : α → Bool) (l : List α) : Nat → Nat → Nat → Nat
  | 0, lo, _ => lo
  | fuel + 1, lo, hi =>
    if lo < hi then
      let mid := (lo + hi) / 2
      match l[mid]? with
      | some y => if p y then bisectGo p l fuel (mid + 1) hi else bisectGo p l fuel lo mid
      | none => lo
    else lo

/-- `bisect` with `lo = 0`, `hi = len(a)`. -/
def bisectBy {α : Type*} (p : α → Bool) (l : List α) : Nat :=
  bisectGo p l (l.length + 1) 0 l.length

/-- `bisect.bisect_left(a, x)` for a class with `__lt__ = lt` (used at segments.py:1093,1104). -/
def bisectLeft {α : Type*} (lt : α → α → Bool) (l : List α) (x : α) : Nat :=
  bisectBy (fun y => lt y x) l

/-- `bisect.insort(a, x)` = `insort_right` (used at segments.py:1099). -/
def insort {α : Type*} (lt : α → α → Bool) (l : List α) (x : α) : List α :=
  let i := bisectBy (fun y => !(lt x y)) l
  l.take i ++ x :: l.drop i

theorem bisectGo_spec {α : Type*} (p : α → Bool) (l₁ l₂ : List α)
    (h₁ : ∀ y ∈ l₁, p y = true) (h₂ : ∀ y ∈ l₂, p y = false) :
    ∀ fuel lo hi, hi ≤ (l₁ ++ l₂).length → lo ≤ l₁.length → l₁.length ≤ hi → hi - lo < fuel →
      bisectGo p (l₁ ++ l₂) fuel lo hi = l₁.length := by
  intro fuel
  induction fuel with
  | zero => intro lo hi _ _ _ h; omega
  | succ fuel ih =>
    intro lo hi hhi hlo hhi' hf
    unfold bisectGo
    split
    · rename_i hlt
      have hmid : (lo + hi) / 2 < (l₁ ++ l₂).length := by omega
      simp only [List.getElem?_eq_getElem hmid]
      by_cases hc : (lo + hi) / 2 < l₁.length
      · have : p ((l₁ ++ l₂)[(lo + hi) / 2]) = true := by
          rw [List.getElem_append_left hc]; exact h₁ _ (List.getElem_mem _)
        simp only [this, if_true]
        exact ih _ _ hhi (by omega) hhi' (by omega)
      · have hc' : l₁.length ≤ (lo + hi) / 2 := by omega
        have : p ((l₁ ++ l₂)[(lo + hi) / 2]) = false := by
          rw [List.getElem_append_right hc']; exact h₂ _ (List.getElem_mem _)
        simp only [this]
        exact ih _ _ (by omega) hlo (by omega) (by omega)
    · omega

/-- On a list that is a block of `p`-elements followed by a block of non-`p`-elements, the binary
search returns the length of the first block. -/
theorem bisectBy_append {α : Type*} (p : α → Bool) (l₁ l₂ : List α)
    (h₁ : ∀ y ∈ l₁, p y = true) (h₂ : ∀ y ∈ l₂, p y = false) :
    bisectBy p (l₁ ++ l₂) = l₁.length := by
  unfold bisectBy
  exact bisectGo_spec p l₁ l₂ h₁ h₂ _ _ _ le_rfl (Nat.zero_le _) (by simp) (by omega)

theorem bisectGo_le {α : Type*} (p : α → Bool) (l : List α) :
    ∀ fuel lo hi, lo ≤ hi → bisectGo p l fuel lo hi ≤ hi := by
  intro fuel
  induction fuel with
  | zero => intro lo hi h; exact h
  | succ fuel ih =>
    intro lo hi h
    unfold bisectGo
    split
    · simp only []
      split
      · split
        · exact ih _ _ (by omega)
        · exact le_trans (ih _ _ (by omega)) (by omega)
      · exact h
    · exact h

theorem bisectBy_le {α : Type*} (p : α → Bool) (l : List α) : bisectBy p l ≤ l.length :=
  bisectGo_le p l _ _ _ (Nat.zero_le _)

theorem insort_perm {α : Type*} (lt : α → α → Bool) (l : List α) (x : α) :
    (insort lt l x).Perm (x :: l) := by
  unfold insort
  refine List.perm_middle.trans ?_
  rw [List.take_append_drop]

end Pacal
