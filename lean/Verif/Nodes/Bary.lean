import Verif.Nodes.Lemmas
import Mathlib.LinearAlgebra.Lagrange
import Mathlib.RingTheory.Polynomial.Chebyshev
import Mathlib.Analysis.SpecialFunctions.Trigonometric.Chebyshev.Basic
import Mathlib.Tactic.LinearCombination

/-! Helper lemmas for C41: barycentric evaluation and the weights of the Chebyshev interpolators. -/

set_option linter.unusedSectionVars false

namespace Pacal
namespace Nodes
open Polynomial
variable {K : Type} [Field K] [LinearOrder K] [IsStrictOrderedRing K]

theorem baryLoop_miss (v r w : ℕ → K) (x : K) : ∀ (l : List ℕ), (∀ i ∈ l, x ≠ v i) → ∀ num den,
    baryLoop x (l.map fun i => (v i, r i, w i)) num den
      = .inr (num + (l.map fun i => w i / (x - v i) * r i).sum, den + (l.map fun i => w i / (x - v i)).sum)
  | [], _, num, den => by simp [baryLoop]
  | i :: l, h, num, den => by
    rw [List.map_cons, baryLoop, if_neg (h i (by simp)), baryLoop_miss v r w x l (fun j hj => h j (by simp [hj]))]
    simp [add_assoc]

theorem baryLoop_hit (v r w : ℕ → K) (x : K) : ∀ (l : List ℕ), (∃ i ∈ l, x = v i) → ∀ num den,
    ∃ i ∈ l, x = v i ∧ baryLoop x (l.map fun i => (v i, r i, w i)) num den = .inl (r i)
  | [], h, _, _ => by simp at h
  | i :: l, h, num, den => by
    rw [List.map_cons, baryLoop]
    by_cases hx : x = v i
    · exact ⟨i, by simp, hx, by rw [if_pos hx]⟩
    · obtain ⟨j, hj, h1, h2⟩ := baryLoop_hit v r w x l (by
        obtain ⟨j, hj, h⟩ := h
        rcases List.mem_cons.1 hj with rfl | hj
        · exact (hx h).elim
        · exact ⟨j, hj, h⟩) (num + w i / (x - v i) * r i) (den + w i / (x - v i))
      exact ⟨j, by simp [hj], h1, by rw [if_neg hx, h2]⟩

theorem sum_range_list (n : ℕ) (f : ℕ → K) : ((List.range n).map f).sum = ∑ i ∈ Finset.range n, f i := rfl

/-- weights proportional to the nodal weights -/
def Prop' (n : ℕ) (v w : ℕ → K) : Prop :=
  ∃ c, c ≠ 0 ∧ ∀ i, i < n → w i = c * Lagrange.nodalWeight (Finset.range n) v i

theorem bary_hit {n : ℕ} (v r w : ℕ → K) (hv : Set.InjOn v (Finset.range n)) {i : ℕ} (hi : i < n) :
    bary ((List.range n).map v) ((List.range n).map r) ((List.range n).map w) (v i) = .ok (r i) := by
  unfold bary
  rw [List.zip_map', List.zip_map']
  obtain ⟨j, hj, h1, h2⟩ := baryLoop_hit v r w (v i) (List.range n) ⟨i, by simpa using hi, rfl⟩ 0 0
  rw [h2]
  have : i = j := hv (by simpa using hi) (by simpa using hj) h1
  rw [this]

theorem sums_eq {n : ℕ} (hn : 1 ≤ n) (v r w : ℕ → K) (hv : Set.InjOn v (Finset.range n)) (hw : Prop' n v w)
    {p : K[X]} (hd : p.degree < n) (hp : ∀ i, i < n → p.eval (v i) = r i) {x : K} (hx : ∀ i, i < n → x ≠ v i) :
    ((List.range n).map fun i => w i / (x - v i)).sum ≠ 0 ∧
    ((List.range n).map fun i => w i / (x - v i) * r i).sum / ((List.range n).map fun i => w i / (x - v i)).sum
      = p.eval x := by
  obtain ⟨c, hc, hw⟩ := hw
  have hs : (Finset.range n).Nonempty := ⟨0, by simp; omega⟩
  have hx' : ∀ i ∈ Finset.range n, x ≠ v i := fun i hi => hx i (Finset.mem_range.1 hi)
  have e1 : ((List.range n).map fun i => w i / (x - v i)).sum
      = c * ∑ i ∈ Finset.range n, Lagrange.nodalWeight (Finset.range n) v i * (x - v i)⁻¹ := by
    rw [sum_range_list, Finset.mul_sum]
    refine Finset.sum_congr rfl fun i hi => ?_
    rw [hw i (Finset.mem_range.1 hi), div_eq_mul_inv, mul_assoc]
  have e2 : ((List.range n).map fun i => w i / (x - v i) * r i).sum
      = c * ∑ i ∈ Finset.range n, Lagrange.nodalWeight (Finset.range n) v i * (x - v i)⁻¹ * r i := by
    rw [sum_range_list, Finset.mul_sum]
    refine Finset.sum_congr rfl fun i hi => ?_
    rw [hw i (Finset.mem_range.1 hi), div_eq_mul_inv]; ring
  have hne := Lagrange.sum_nodalWeight_mul_inv_sub_ne_zero hv hx' hs
  refine ⟨by rw [e1]; exact mul_ne_zero hc hne, ?_⟩
  rw [e1, e2, mul_div_mul_left _ _ hc, ← Lagrange.eval_interpolate_not_at_node' r hv hs hx']
  congr 1
  symm
  apply Lagrange.eq_interpolate_of_eval_eq r hv
  · simpa using hd
  · intro i hi
    exact hp i (Finset.mem_range.1 hi)

theorem bary_core {n : ℕ} (hn : 1 ≤ n) (v r w : ℕ → K) (hv : Set.InjOn v (Finset.range n)) (hw : Prop' n v w)
    {p : K[X]} (hd : p.degree < n) (hp : ∀ i, i < n → p.eval (v i) = r i) (x : K) :
    bary ((List.range n).map v) ((List.range n).map r) ((List.range n).map w) x = .ok (p.eval x) := by
  by_cases h : ∃ i, i < n ∧ x = v i
  · obtain ⟨i, hi, rfl⟩ := h
    rw [bary_hit v r w hv hi, hp i hi]
  · have hx : ∀ i, i < n → x ≠ v i := fun i hi h' => h ⟨i, hi, h'⟩
    obtain ⟨h1, h2⟩ := sums_eq hn v r w hv hw hd hp hx
    unfold bary
    rw [List.zip_map', List.zip_map', baryLoop_miss v r w x _ fun i hi => hx i (List.mem_range.1 hi)]
    simp only [zero_add]
    rw [if_pos h1, h2]

theorem filter_range_unique {n : ℕ} (P : ℕ → Prop) [DecidablePred P] {i : ℕ} (hi : i < n) (hP : P i)
    (hu : ∀ j, j < n → P j → j = i) : (List.range n).filter (fun j => P j) = [i] := by
  have hnd : ((List.range n).filter fun j => P j).Nodup := List.nodup_range.filter _
  have hm : ∀ j, j ∈ (List.range n).filter (fun j => P j) ↔ j = i := by
    intro j
    simp only [List.mem_filter, List.mem_range, decide_eq_true_eq]
    exact ⟨fun h => hu j h.1 h.2, fun h => h ▸ ⟨hi, hP⟩⟩
  have : ((List.range n).filter fun j => P j).Perm [i] :=
    (List.perm_ext_iff_of_nodup hnd (by simp)).2 fun j => by simp only [hm, List.mem_singleton]
  exact List.perm_singleton.1 this

theorem argmin_lt : ∀ {xs : List K}, xs ≠ [] → ∃ i, argmin xs = .ok i ∧ i < xs.length := by
  intro xs hxs
  cases xs with
  | nil => exact (hxs rfl).elim
  | cons x xs =>
    refine ⟨_, rfl, ?_⟩
    suffices h : ∀ (l : List K) (s : ℕ × ℕ × K), s.2.1 < s.1 →
        (l.foldl (fun (s : ℕ × ℕ × K) y =>
          if y < s.2.2 then (s.1 + 1, s.1, y) else (s.1 + 1, s.2.1, s.2.2)) s).2.1 < s.1 + l.length by
      have := h xs (1, 0, x) (by norm_num)
      simpa [Nat.add_comm] using this
    intro l
    induction l with
    | nil => intro s hs; simpa using hs
    | cons y l ih =>
      intro s hs
      rw [List.foldl_cons]
      split
      · have := ih (s.1 + 1, s.1, y) (by simp)
        simp only [List.length_cons] at this ⊢; omega
      · have := ih (s.1 + 1, s.2.1, s.2.2) (by dsimp only; omega)
        simp only [List.length_cons] at this ⊢; omega

theorem baryPy_core {n : ℕ} (hn : 1 ≤ n) (v r w : ℕ → K) (hv : Set.InjOn v (Finset.range n)) (hw : Prop' n v w)
    {p : K[X]} (hd : p.degree < n) (hp : ∀ i, i < n → p.eval (v i) = r i) (x : K) :
    baryPy ((List.range n).map v) ((List.range n).map r) ((List.range n).map w) x = .ok (p.eval x) := by
  unfold baryPy
  rw [List.zip_map', List.zip_map']
  dsimp only
  rw [List.filter_map]
  by_cases h : ∃ i, i < n ∧ x = v i
  · obtain ⟨i, hi, rfl⟩ := h
    have e := filter_range_unique (n := n) (fun j => v i - v j = 0) hi (sub_self _) (fun j hj h =>
      hv (by simpa using hj) (by simpa using hi) (sub_eq_zero.1 h).symm)
    have e' : List.filter ((fun p : K × K × K => decide (v i - p.1 = 0)) ∘ fun i => (v i, r i, w i)) (List.range n)
        = [i] := e
    rw [e', hp i hi]
    simp only [List.map_cons, List.map_nil, List.getLast?_singleton]
    split
    · obtain ⟨k, hk, hlt⟩ := argmin_lt
        (xs := ((List.range n).map v).map fun xn => |if v i - xn = 0 then 1 else v i - xn|) (by simp; omega)
      rw [hk]
      simp only [List.length_map, List.length_range] at hlt
      simp [bind, Except.bind, List.getElem?_range hlt]
    · rfl
  · have hx : ∀ i, i < n → x ≠ v i := fun i hi h' => h ⟨i, hi, h'⟩
    obtain ⟨h1, h2⟩ := sums_eq hn v r w hv hw hd hp hx
    have e : List.filter ((fun p : K × K × K => decide (x - p.1 = 0)) ∘ fun i => (v i, r i, w i)) (List.range n)
        = [] := by
      rw [List.filter_eq_nil_iff]
      intro j hj
      simpa [sub_eq_zero] using hx j (List.mem_range.1 hj)
    rw [e]
    have s1 : (((List.range n).map fun i => (v i, r i, w i)).map
        fun p => p.2.2 / (if x - p.1 = 0 then 1 else x - p.1)).sum = ((List.range n).map fun i => w i / (x - v i)).sum := by
      rw [List.map_map]
      congr 1
      apply List.map_congr_left
      intro j hj
      simp only [Function.comp]
      rw [if_neg (sub_ne_zero.2 (hx j (List.mem_range.1 hj)))]
    have s2 : (((List.range n).map fun i => (v i, r i, w i)).map
        fun p => p.2.2 / (if x - p.1 = 0 then 1 else x - p.1) * p.2.1).sum
          = ((List.range n).map fun i => w i / (x - v i) * r i).sum := by
      rw [List.map_map]
      congr 1
      apply List.map_congr_left
      intro j hj
      simp only [Function.comp]
      rw [if_neg (sub_ne_zero.2 (hx j (List.mem_range.1 hj)))]
    rw [s1, s2, if_neg h1, h2]
    rfl

theorem list_eq_range_map (xs : List K) : xs = (List.range xs.length).map fun i => xs.getD i 0 := by
  apply List.ext_getElem (by simp)
  intro i h1 h2
  simp [List.getElem?_eq_getElem h1]

theorem lagrangeWeights_eq (n : ℕ) (v : ℕ → K) :
    lagrangeWeights ((List.range n).map v)
      = (List.range n).map fun i => Lagrange.nodalWeight (Finset.range n) v i := by
  have hz : ((List.range n).map v).zipIdx = (List.range n).map fun i => (v i, i) := by
    apply List.ext_getElem (by simp)
    intro i h1 h2
    simp
  unfold lagrangeWeights
  rw [hz, List.map_map]
  apply List.map_congr_left
  intro i hi
  simp only [Function.comp, List.foldl_map]
  have key : ∀ m, (List.range m).foldl (fun w j => if j ≠ i then w / (v i - v j) else w) (1 : K)
      = ∏ j ∈ (Finset.range m).erase i, (v i - v j)⁻¹ := by
    intro m
    induction m with
    | zero => simp
    | succ m ih =>
      rw [List.range_succ, List.foldl_append, ih]
      simp only [List.foldl_cons, List.foldl_nil]
      split
      · rename_i h
        rw [Finset.range_add_one, Finset.erase_insert_of_ne h, Finset.prod_insert (by simp), div_eq_mul_inv, mul_comm]
      · rename_i h
        push Not at h
        subst h
        rw [Finset.range_add_one, Finset.erase_insert (by simp), Finset.erase_eq_of_notMem (by simp)]
  exact key n

/-! ### nodal weights from a polynomial vanishing at the nodes -/

theorem nodalWeight_of_poly {n : ℕ} {v : ℕ → K} (hv : Set.InjOn v (Finset.range n)) {R : K[X]} (hd : R.degree = n)
    (hR : ∀ i, i < n → R.eval (v i) = 0) {i : ℕ} (hi : i < n) :
    Lagrange.nodalWeight (Finset.range n) v i = R.leadingCoeff / (derivative R).eval (v i) := by
  have hR0 : R ≠ 0 := by rintro rfl; simp at hd
  have hl : R.leadingCoeff ≠ 0 := leadingCoeff_ne_zero.2 hR0
  have e : R = C R.leadingCoeff * Lagrange.nodal (Finset.range n) v := by
    apply Polynomial.eq_of_degree_sub_lt_of_eval_index_eq (Finset.range n) hv
    · rw [Finset.card_range, ← hd]
      apply degree_sub_lt_left
      · rw [degree_C_mul hl, Lagrange.degree_nodal, Finset.card_range, hd]
      · exact hR0
      · rw [leadingCoeff_mul, leadingCoeff_C, Lagrange.nodal_monic.leadingCoeff, mul_one]
    · intro j hj
      rw [hR j (Finset.mem_range.1 hj), eval_mul, Lagrange.eval_nodal_at_node hj, mul_zero]
  rw [Lagrange.nodalWeight_eq_eval_derivative_nodal (Finset.mem_range.2 hi)]
  have e' := congrArg derivative e
  rw [derivative_C_mul] at e'
  rw [e', eval_mul, eval_C, div_mul_cancel_left₀ hl]

theorem nodalWeight_affine {n : ℕ} (v : ℕ → K) (α β : K) {i : ℕ} (hi : i < n) :
    Lagrange.nodalWeight (Finset.range n) (fun k => α + β * v k) i
      = (β⁻¹) ^ (n - 1) * Lagrange.nodalWeight (Finset.range n) v i := by
  unfold Lagrange.nodalWeight
  have : ∀ j ∈ (Finset.range n).erase i, (α + β * v i - (α + β * v j))⁻¹ = β⁻¹ * (v i - v j)⁻¹ := by
    intro j _
    rw [← mul_inv]; congr 1; ring
  rw [Finset.prod_congr rfl this, Finset.prod_mul_distrib, Finset.prod_const,
    Finset.card_erase_of_mem (Finset.mem_range.2 hi), Finset.card_range]

theorem Prop'.affine {n : ℕ} {v w : ℕ → K} (h : Prop' n v w) (α : K) {β : K} (hβ : β ≠ 0) :
    Prop' n (fun k => α + β * v k) w := by
  obtain ⟨c, hc, h⟩ := h
  refine ⟨c * β ^ (n - 1), mul_ne_zero hc (pow_ne_zero _ hβ), fun i hi => ?_⟩
  rw [nodalWeight_affine v α β hi, h i hi, inv_pow, mul_assoc, mul_inv_cancel_left₀ (pow_ne_zero _ hβ)]

end Nodes
end Pacal
