import Verif.Iid.Model
import Mathlib.Data.Nat.Choose.Basic
import Mathlib.Data.Nat.Choose.Multinomial
import Mathlib.Data.Nat.Cast.Field
import Mathlib.Tactic.FieldSimp
import Mathlib.Tactic.Linarith
import Mathlib.Tactic.LinearCombination
import Mathlib.Algebra.Order.Field.Rat

/-! Helper lemmas for the iid operations. -/

namespace Pacal
namespace Iid
variable {α : Type*}

/-- value of a list of binary digits after `v` -/
def digitsVal : ℕ → List Bool → ℕ
  | v, [] => v
  | v, b :: bs => digitsVal (2 * v + (if b then 1 else 0)) bs

theorem digitsVal_append (v : ℕ) (l₁ l₂ : List Bool) :
    digitsVal v (l₁ ++ l₂) = digitsVal (digitsVal v l₁) l₂ := by
  induction l₁ generalizing v with
  | nil => rfl
  | cons b l ih => simp [digitsVal, ih]

theorem digitsVal_bin (n : ℕ) : digitsVal 0 (binDigits n) = n := by
  induction n using Nat.strong_induction_on with
  | _ n ih =>
    unfold binDigits
    split
    · rename_i h
      rcases n with _ | _ | n
      · rfl
      · rfl
      · omega
    · rename_i h
      rw [digitsVal_append, ih (n / 2) (by omega)]
      simp only [digitsVal, beq_iff_eq]
      split <;> omega

/-- `R a m` : "`a` is an `m`-fold result". If `op` never fails on such values and adds the counts, then the
loop succeeds, leaves the flag as `op` leaves it and produces a result of the right count. -/
theorem intExpLoop_rel (R : α → ℕ → Prop) (op : α → α → Cfg α) (x : α) (hx : R x 1) (s : Bool)
    (hop : ∀ a b m k, R a m → R b k → ∃ c, op a b s = (.ok c, s) ∧ R c (m + k)) :
    ∀ (bs : List Bool) (res : Option α) (v : ℕ),
      (res = none ∧ v = 0 ∨ ∃ r, res = some r ∧ R r v ∧ 0 < v) →
      ∃ res', intExpLoop op x bs res s = (.ok res', s) ∧
        (res' = none ∧ digitsVal v bs = 0 ∨ ∃ r, res' = some r ∧ R r (digitsVal v bs) ∧ 0 < digitsVal v bs) := by
  intro bs
  induction bs with
  | nil => intro res v h; exact ⟨res, rfl, h⟩
  | cons b bs ih =>
    intro res v h
    rcases h with ⟨rfl, rfl⟩ | ⟨r, rfl, hr, hv⟩
    · cases b
      · simpa [intExpLoop, Cfg.bind, Cfg.pure, digitsVal] using ih none 0 (.inl ⟨rfl, rfl⟩)
      · simpa [intExpLoop, Cfg.bind, Cfg.pure, digitsVal] using
          ih (some x) 1 (.inr ⟨x, rfl, hx, by omega⟩)
    · obtain ⟨c, hc, hR⟩ := hop r r v v hr hr
      cases b
      · have := ih (some c) (2 * v) (.inr ⟨c, rfl, by rw [two_mul]; exact hR, by omega⟩)
        simpa [intExpLoop, Cfg.bind, Cfg.pure, digitsVal, hc] using this
      · obtain ⟨d, hd, hR'⟩ := hop c x (v + v) 1 hR hx
        have := ih (some d) (2 * v + 1) (.inr ⟨d, rfl, by rw [two_mul]; exact hR', by omega⟩)
        simpa [intExpLoop, Cfg.bind, Cfg.pure, digitsVal, hc, hd] using this

theorem intExp_rel (R : α → ℕ → Prop) (op : α → α → Cfg α) (x : α) (hx : R x 1) (s : Bool)
    (hop : ∀ a b m k, R a m → R b k → ∃ c, op a b s = (.ok c, s) ∧ R c (m + k)) (n : ℕ) (hn : 1 ≤ n) :
    ∃ r, intExp op x n s = (.ok (some r), s) ∧ R r n := by
  obtain ⟨res, h₁, h₂⟩ := intExpLoop_rel R op x hx s hop (binDigits n) none 0 (.inl ⟨rfl, rfl⟩)
  rw [digitsVal_bin] at h₂
  rcases h₂ with ⟨_, h⟩ | ⟨r, rfl, h, _⟩
  · omega
  · exact ⟨r, h₁, h⟩

theorem intExpAllLoop_rel (R : α → ℕ → Prop) (op : α → α → Cfg α) (s : Bool)
    (hop : ∀ a b m k, R a m → R b k → ∃ c, op a b s = (.ok c, s) ∧ R c (m + k)) :
    ∀ (k : ℕ) (res : List α), 1 ≤ res.length → (∀ i (h : i < res.length), R res[i] (i + 1)) →
      ∃ l, intExpAllLoop op k res s = (.ok l, s) ∧ l.length = res.length + k ∧
        ∀ i (h : i < l.length), R l[i] (i + 1) := by
  intro k
  induction k with
  | zero => intro res _ h; exact ⟨res, rfl, rfl, h⟩
  | succ k ih =>
    intro res hlen h
    have h₁ : (res.length + 1) / 2 - 1 < res.length := by omega
    have h₂ : res.length + 1 - (res.length + 1) / 2 - 1 < res.length := by omega
    obtain ⟨c, hc, hR⟩ := hop _ _ _ _ (h _ h₁) (h _ h₂)
    obtain ⟨l, e, hl, hall⟩ := ih (res ++ [c]) (by simp) (by
      intro i hi
      simp only [List.length_append, List.length_singleton] at hi
      by_cases hlt : i < res.length
      · rw [List.getElem_append_left hlt]; exact h i hlt
      · have : i = res.length := by omega
        subst this
        simp only [List.getElem_append_right le_rfl, Nat.sub_self, List.getElem_cons_zero]
        convert hR using 1
        omega)
    refine ⟨l, ?_, by rw [hl]; simp; omega, hall⟩
    simp only [intExpAllLoop, List.getElem?_eq_getElem h₁, List.getElem?_eq_getElem h₂, Cfg.bind, hc]
    exact e

theorem intExpAll_rel (R : α → ℕ → Prop) (op : α → α → Cfg α) (x : α) (hx : R x 1) (s : Bool)
    (hop : ∀ a b m k, R a m → R b k → ∃ c, op a b s = (.ok c, s) ∧ R c (m + k)) (n : ℕ) (hn : 1 ≤ n) :
    ∃ l, intExpAll op x n s = (.ok l, s) ∧ l.length = n ∧ ∀ i (h : i < l.length), R l[i] (i + 1) := by
  have := intExpAllLoop_rel R op s hop (n - 1) [x] (by simp) (by
    intro i hi
    simp only [List.length_singleton] at hi
    have : i = 0 := by omega
    subst this; exact hx)
  obtain ⟨l, h₁, h₂, h₃⟩ := this
  refine ⟨l, ?_, ?_, h₃⟩
  · unfold intExpAll; rw [if_neg (by omega)]; exact h₁
  · rw [h₂]; simp; omega

theorem mapIdxM_rel (f : ℕ → α → Cfg α) (s : Bool) (Q : ℕ → α → Prop) :
    ∀ (l : List α) (i : ℕ), (∀ j (h : j < l.length), ∃ b, f (i + j) l[j] s = (.ok b, s) ∧ Q (i + j) b) →
      ∃ l', mapIdxM f i l s = (.ok l', s) ∧ l'.length = l.length ∧
        ∀ j (h : j < l'.length), Q (i + j) l'[j] := by
  intro l
  induction l with
  | nil => intro i _; exact ⟨[], rfl, rfl, by simp⟩
  | cons a l ih =>
    intro i h
    obtain ⟨b, hb, hQ⟩ := h 0 (by simp)
    simp only [List.getElem_cons_zero, Nat.add_zero] at hb hQ
    obtain ⟨l', e, hl, hall⟩ := ih (i + 1) (by
      intro j hj
      have := h (j + 1) (by simp; omega)
      simpa [Nat.add_assoc, Nat.add_comm 1 j] using this)
    refine ⟨b :: l', ?_, by simp [hl], ?_⟩
    · simp [mapIdxM, Cfg.bind, Cfg.pure, hb, e]
    · intro j hj
      cases j with
      | zero => simpa using hQ
      | succ j =>
        have := hall j (by simpa using hj)
        simpa [Nat.add_assoc, Nat.add_comm 1 j] using this

/-! ### binomial coefficients -/

theorem binomLoop_eq (n : ℕ) : ∀ (k i : ℕ), i + k ≤ n →
    binomLoop n k (n.choose i : ℚ) i = (n.choose (i + k) : ℚ) := by
  intro k
  induction k with
  | zero => intro i _; rfl
  | succ k ih =>
    intro i h
    simp only [binomLoop]
    have : ((n.choose i : ℚ) * (((n : ℤ) : ℚ) - i) / (i + 1)) = (n.choose (i + 1) : ℚ) := by
      have h₁ := Nat.choose_succ_right_eq n i
      have h₂ : ((n.choose (i + 1) : ℚ)) * (i + 1) = (n.choose i : ℚ) * (n - i) := by
        have := congrArg (Nat.cast : ℕ → ℚ) h₁
        push_cast [Nat.cast_sub (show i ≤ n by omega)] at this
        exact this
      have h₃ : ((i : ℚ) + 1) ≠ 0 := by positivity
      rw [Int.cast_natCast, ← h₂]
      field_simp
    rw [this, ih (i + 1) (by omega)]
    congr 2; omega

theorem binomialCoeff_eq (n k : ℕ) (h : k ≤ n) : binomialCoeff n k = (n.choose k : ℚ) := by
  have base : (1 : ℚ) = (n.choose 0 : ℚ) := by simp
  unfold binomialCoeff
  simp only
  split
  · have : ((n : ℤ) - k).toNat = n - k := by omega
    rw [this, base, binomLoop_eq n (n - k) 0 (by omega), Nat.zero_add, Nat.choose_symm h]
  · rw [Int.toNat_natCast, base, binomLoop_eq n k 0 (by omega), Nat.zero_add]

theorem multiInner_eq (n : ℕ) (C : ℚ) : ∀ (k i j : ℕ), i ≤ j → j + k ≤ n →
    multiInner n k (C * ((n - j + i).choose i : ℚ), j) i =
      (C * ((n - j + i).choose (i + k) : ℚ), j + k) := by
  intro k
  induction k with
  | zero => intro i j _ _; rfl
  | succ k ih =>
    intro i j hij h
    simp only [multiInner]
    have : C * ((n - j + i).choose i : ℚ) * (((n : ℤ) : ℚ) - j) / (i + 1) =
        C * ((n - (j + 1) + (i + 1)).choose (i + 1) : ℚ) := by
      have e : n - (j + 1) + (i + 1) = n - j + i := by omega
      rw [e]
      have h₁ := Nat.choose_succ_right_eq (n - j + i) i
      have h₂ : (((n - j + i).choose (i + 1) : ℚ)) * (i + 1) = ((n - j + i).choose i : ℚ) * (n - j) := by
        have := congrArg (Nat.cast : ℕ → ℚ) h₁
        have e₂ : n - j + i - i = n - j := by omega
        rw [e₂] at this
        push_cast [Nat.cast_sub (show j ≤ n by omega)] at this
        exact this
      have h₃ : ((i : ℚ) + 1) ≠ 0 := by positivity
      rw [Int.cast_natCast, mul_assoc, ← h₂]
      field_simp
    rw [this, ih (i + 1) (j + 1) (by omega) (by omega)]
    have e : n - (j + 1) + (i + 1) = n - j + i := by omega
    rw [e]
    rw [show i + 1 + k = i + (k + 1) by omega, show j + 1 + k = j + (k + 1) by omega]

theorem multiFold_eq (n : ℕ) : ∀ (ks : List ℕ) (c : ℚ) (j : ℕ), j + ks.sum ≤ n →
    (ks.foldl (fun cj k => multiInner n k cj 0) (c, j)).1 *
        ((ks.map Nat.factorial).prod : ℕ) * ((n - j - ks.sum).factorial : ℕ) =
      c * ((n - j).factorial : ℕ) := by
  intro ks
  induction ks with
  | nil => intro c j _; simp
  | cons k ks ih =>
    intro c j h
    rw [List.sum_cons] at h
    have step : multiInner n k (c, j) 0 = (c * ((n - j).choose k : ℚ), j + k) := by
      have := multiInner_eq n c k 0 j (by omega) (by omega)
      simpa using this
    rw [List.foldl_cons, step, List.map_cons, List.prod_cons, List.sum_cons]
    have := ih (c * ((n - j).choose k : ℚ)) (j + k) (by omega)
    have e : n - (j + k) - ks.sum = n - j - (k + ks.sum) := by omega
    rw [e] at this
    have hc := Nat.choose_mul_factorial_mul_factorial (show k ≤ n - j by omega)
    have hc' : ((n - j).choose k : ℚ) * (k.factorial : ℚ) * ((n - (j + k)).factorial : ℚ) =
        ((n - j).factorial : ℚ) := by
      rw [show n - (j + k) = n - j - k by omega]
      exact_mod_cast hc
    push_cast at this ⊢
    rw [← hc']
    linear_combination (k.factorial : ℚ) * this

end Iid
end Pacal
