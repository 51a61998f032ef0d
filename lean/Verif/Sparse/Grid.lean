import Verif.Sparse.Model
import Mathlib.Algebra.BigOperators.Intervals
import Mathlib.Algebra.BigOperators.Ring.Finset
import Mathlib.Algebra.BigOperators.Field
import Mathlib.Data.List.GetD

/-! Lemmas for `Sparse/Props.lean`: multi-indices in the order of `itertools.product`, the odometer and the contraction. -/

namespace Pacal
namespace Sparse

/-- the multi-index with number `k` in lexicographic order -/
def digits : List ℕ → ℕ → List ℕ
  | [], _ => []
  | _ :: ms, k => (k / ms.prod) :: digits ms (k % ms.prod)

theorem range_mul (m n : ℕ) : List.range (m * n) = (List.range m).flatMap fun i => (List.range n).map fun j => i * n + j := by
  induction m with
  | zero => simp
  | succ m ih =>
    rw [Nat.succ_mul, List.range_add, ih, List.range_succ, List.flatMap_append, List.flatMap_singleton]

theorem product_range : ∀ ms : List ℕ, product (ms.map List.range) = (List.range ms.prod).map (digits ms)
  | [] => by simp [product, digits]
  | m :: ms => by
    rw [List.map_cons, product, product_range ms, List.prod_cons, range_mul, List.map_flatMap]
    refine List.flatMap_congr fun i _ => ?_
    rw [List.map_map, List.map_map]
    refine List.map_congr_left fun j hj => ?_
    have hj' := List.mem_range.1 hj
    have hp : 0 < ms.prod := by omega
    show i :: digits ms j = ((i * ms.prod + j) / ms.prod) :: digits ms ((i * ms.prod + j) % ms.prod)
    rw [Nat.add_comm, Nat.add_mul_div_right _ _ hp, Nat.div_eq_of_lt hj', Nat.zero_add, Nat.add_mul_mod_self_right, Nat.mod_eq_of_lt hj']

theorem digits_zero : ∀ ms : List ℕ, digits ms 0 = ms.map fun _ => 0
  | [] => rfl
  | m :: ms => by rw [digits, Nat.zero_div, Nat.zero_mod, digits_zero ms, List.map_cons]

theorem prod_pos {ms : List ℕ} (h : ∀ m ∈ ms, 0 < m) : 0 < ms.prod := by
  induction ms with
  | nil => simp
  | cons m ms ih =>
    rw [List.prod_cons]
    exact Nat.mul_pos (h m (by simp)) (ih fun x hx => h x (by simp [hx]))

theorem digits_lt : ∀ {ms : List ℕ} {k : ℕ}, k < ms.prod → List.Forall₂ (· < ·) (digits ms k) ms
  | [], _, _ => .nil
  | m :: ms, k, h => by
    rw [List.prod_cons] at h
    have hp : 0 < ms.prod := Nat.pos_of_ne_zero (by rintro h0; rw [h0] at h; omega)
    refine .cons ?_ (digits_lt (Nat.mod_lt _ hp))
    rw [Nat.div_lt_iff_lt_mul hp]
    exact h

/-- the odometer goes to the next multi-index -/
theorem advance_digits : ∀ {ms : List ℕ} {k : ℕ}, k < ms.prod →
    advance ms (digits ms k) = (digits ms ((k + 1) % ms.prod), decide (k + 1 = ms.prod))
  | [], k, h => by
    have : k = 0 := by simpa using h
    subst this
    simp [advance, digits]
  | m :: ms, k, h => by
    rw [List.prod_cons] at h
    have hp : 0 < ms.prod := Nat.pos_of_ne_zero (by rintro h0; rw [h0] at h; omega)
    obtain ⟨N, hN⟩ : ∃ N, N = ms.prod := ⟨_, rfl⟩
    obtain ⟨i, j, hj, rfl⟩ : ∃ i j, j < N ∧ k = i * N + j :=
      ⟨k / N, k % N, Nat.mod_lt _ (by omega), by rw [Nat.div_add_mod']⟩
    have hdiv : ∀ i j, j < N → (i * N + j) / N = i ∧ (i * N + j) % N = j := fun i j hj => by
      rw [Nat.add_comm, Nat.add_mul_div_right _ _ (by omega), Nat.div_eq_of_lt hj, Nat.zero_add, Nat.add_mul_mod_self_right, Nat.mod_eq_of_lt hj]
      exact ⟨rfl, rfl⟩
    have hi : i < m := by
      by_contra hc
      rw [← hN] at h
      have := Nat.mul_le_mul_right N (not_lt.1 hc)
      omega
    have hd : digits (m :: ms) (i * N + j) = i :: digits ms j := by
      rw [digits, ← hN, (hdiv i j hj).1, (hdiv i j hj).2]
    rw [hd, advance, advance_digits (by omega), ← hN, List.prod_cons, ← hN]
    by_cases hjN : j + 1 = N
    · have e : i * N + j + 1 = (i + 1) * N := by rw [Nat.succ_mul]; omega
      simp only [hjN, decide_true, if_true, Nat.mod_self]
      by_cases him : i + 1 < m
      · rw [if_pos him, e, Nat.mod_eq_of_lt (Nat.mul_lt_mul_of_pos_right him (by omega)), digits, ← hN, Nat.mul_div_cancel _ (by omega),
          Nat.mul_mod_left]
        have : ¬ (i + 1) * N = m * N := by
          intro hc
          have := Nat.eq_of_mul_eq_mul_right (by omega) hc
          omega
        simp [this]
      · have : i + 1 = m := by omega
        rw [if_neg him, e, this, Nat.mod_self, digits, Nat.zero_div, Nat.zero_mod]
        simp
    · have hlt : j + 1 < N := by omega
      have hlt2 : i * N + j + 1 < m * N := by
        have := Nat.mul_le_mul_right N (show i + 1 ≤ m by omega)
        rw [Nat.succ_mul] at this
        omega
      simp only [hjN, decide_false, Bool.false_eq_true, if_false, Nat.mod_eq_of_lt hlt]
      rw [Nat.mod_eq_of_lt hlt2, Nat.add_assoc, digits, ← hN, (hdiv i (j + 1) hlt).1, (hdiv i (j + 1) hlt).2]
      have : ¬ i * N + (j + 1) = m * N := by omega
      simp [this]

variable {K : Type*} [Field K]

/-- the product of the factors of the axes at a multi-index -/
def weightAt (ws : List (List K)) (i : List ℕ) : K := (List.zipWith (fun w i => w.getD i 0) ws i).prod

theorem factors_eq : ∀ {ws : List (List K)} {is : List ℕ} (t : K), List.Forall₂ (· < ·) is (ws.map List.length) →
    factors ws is t = .ok (t * weightAt ws is)
  | [], [], t, _ => by simp [factors, weightAt]
  | w :: ws, i :: is, t, h => by
    rw [List.map_cons, List.forall₂_cons] at h
    have : access w i = .ok (w.getD i 0) := by
      rw [access, List.getElem?_eq_getElem h.1, List.getD_eq_getElem _ _ h.1]
    rw [factors, this, Except.bind, factors_eq _ h.2, weightAt, weightAt, List.zipWith_cons_cons, List.prod_cons, mul_assoc]

theorem denseLoop_eq (ws : List (List K)) : ∀ (fs : List K) (k : ℕ) (num : K), k + fs.length ≤ (ws.map List.length).prod →
    denseLoop ws (ws.map List.length) fs (digits (ws.map List.length) (k % (ws.map List.length).prod)) num =
      .ok (num + (List.zipWith (fun f i => f * weightAt ws (digits (ws.map List.length) i)) fs (List.range' k fs.length)).sum)
  | [], k, num, _ => by simp [denseLoop]
  | f :: fs, k, num, h => by
    rw [List.length_cons] at h
    have hk : k < (ws.map List.length).prod := by omega
    rw [denseLoop, Nat.mod_eq_of_lt hk, factors_eq _ (digits_lt hk), Except.bind, advance_digits hk]
    show denseLoop ws _ fs (digits _ ((k + 1) % _)) _ = _
    rw [denseLoop_eq ws fs (k + 1) _ (by omega), List.length_cons, List.range'_succ, List.zipWith_cons_cons, List.sum_cons, add_assoc]

/-! ### contraction -/

theorem sum_range (n : ℕ) (f : ℕ → K) : ((List.range n).map f).sum = ∑ i ∈ Finset.range n, f i := rfl

theorem weightAt_cons (w : List K) (ws : List (List K)) (i : ℕ) (is : List ℕ) :
    weightAt (w :: ws) (i :: is) = w.getD i 0 * weightAt ws is := by
  rw [weightAt, List.zipWith_cons_cons, List.prod_cons]; rfl

theorem sum_mul_range (m n : ℕ) (f : ℕ → K) :
    ∑ k ∈ Finset.range (m * n), f k = ∑ i ∈ Finset.range m, ∑ j ∈ Finset.range n, f (i * n + j) := by
  induction m with
  | zero => simp
  | succ m ih => rw [Nat.succ_mul, Finset.sum_range_add, ih, Finset.sum_range_succ]

theorem contractAll_eq : ∀ {ws : List (List ℝ)} (R : ℕ) (g : ℕ → ℝ), (∀ w ∈ ws, 0 < w.length) →
    contractAll ws ((List.range (R * (ws.map List.length).prod)).map g) = .ok ((List.range R).map fun r =>
      (∑ k ∈ Finset.range (ws.map List.length).prod,
        g (r * (ws.map List.length).prod + k) * weightAt ws (digits (ws.map List.length) k)) / (ws.map List.sum).prod)
  | [], R, g, _ => by
    simp only [contractAll, List.map_nil, List.prod_nil, mul_one, Finset.sum_range_one, add_zero, weightAt, List.zipWith_nil_left, div_one]
  | w :: ws, R, g, h => by
    have hw := h w (by simp)
    obtain ⟨N, hN⟩ : ∃ N, N = (ws.map List.length).prod := ⟨_, rfl⟩
    have ih := contractAll_eq (R * w.length) g fun v hv => h v (List.mem_cons_of_mem _ hv)
    rw [contractAll, List.map_cons, List.prod_cons, ← mul_assoc, ih, Except.bind, contract]
    simp only [List.length_map, List.length_range]
    rw [if_neg (by rw [Nat.mul_mod_left]; omega), Nat.mul_div_cancel _ hw, ← hN]
    congr 1
    refine List.map_congr_left fun r hr => ?_
    have hr' := List.mem_range.1 hr
    rw [sum_range, List.map_cons, List.prod_cons]
    have e : ∀ k ∈ Finset.range w.length, (w.getD k 0 * ((List.range (R * w.length)).map fun r =>
        (∑ k ∈ Finset.range N, g (r * N + k) * weightAt ws (digits (ws.map List.length) k)) / (ws.map List.sum).prod).getD (r * w.length + k) 0) =
        (∑ j ∈ Finset.range N, g (r * (w.length * N) + (k * N + j)) *
          weightAt (w :: ws) (digits (w.length :: ws.map List.length) (k * N + j))) / (ws.map List.sum).prod := by
      intro k hk
      rw [Finset.mem_range] at hk
      have hlt : r * w.length + k < R * w.length := by
        have := Nat.mul_le_mul_right w.length (show r + 1 ≤ R by omega)
        rw [Nat.succ_mul] at this
        omega
      rw [List.getD_eq_getElem ((List.range (R * w.length)).map _) _ (by rw [List.length_map, List.length_range]; exact hlt),
        List.getElem_map, List.getElem_range, mul_div_assoc', Finset.mul_sum]
      congr 1
      refine Finset.sum_congr rfl fun j hj => ?_
      rw [Finset.mem_range] at hj
      have hd : digits (w.length :: ws.map List.length) (k * N + j) = k :: digits (ws.map List.length) j := by
        rw [digits, ← hN, Nat.add_comm, Nat.add_mul_div_right _ _ (by omega), Nat.div_eq_of_lt hj, Nat.zero_add, Nat.add_mul_mod_self_right,
          Nat.mod_eq_of_lt hj]
      rw [hd, weightAt_cons, show (r * w.length + k) * N + j = r * (w.length * N) + (k * N + j) by ring]
      ring
    rw [Finset.sum_congr rfl e, ← Finset.sum_div, ← sum_mul_range w.length N fun K =>
      g (r * (w.length * N) + K) * weightAt (w :: ws) (digits (w.length :: ws.map List.length) K), div_div, mul_comm w.sum]

theorem fullGrid_eq {ws : List (List ℝ)} (hw : ∀ w ∈ ws, 0 < w.length) (F : List ℕ → ℝ) :
    fullGrid ws ((product ((ws.map List.length).map List.range)).map F) =
      .ok (((product ((ws.map List.length).map List.range)).map fun i => F i * weightAt ws i).sum / (ws.map List.sum).prod) := by
  have h := contractAll_eq 1 (fun k => F (digits (ws.map List.length) k)) hw
  rw [one_mul] at h
  rw [product_range, List.map_map, List.map_map]
  rw [fullGrid, show (F ∘ digits (ws.map List.length)) = fun k => F (digits (ws.map List.length) k) from rfl, h]
  simp only [Except.bind, List.range_one, List.map_cons, List.map_nil, access, zero_mul, zero_add]
  rfl

end Sparse
end Pacal
