import Verif.Nodes.Arrays
import Verif.Nodes.PropsBary

/-!
# Property C41 for the other evaluation methods: plain Lagrange interpolation, arrays
-/

namespace Pacal
open Polynomial Nodes
variable {K : Type} [Field K] [LinearOrder K] [IsStrictOrderedRing K]

private theorem foldlM_ok {α : Type} (l : List α) (f : K → α → Except PyErr K) (g : α → K)
    (h : ∀ a ∈ l, ∀ r, f r a = .ok (r + g a)) (r : K) : l.foldlM f r = .ok (r + (l.map g).sum) := by
  induction l generalizing r with
  | nil => simp [pure, Except.pure]
  | cons a l ih =>
    rw [List.foldlM_cons, h a List.mem_cons_self]
    simp only [Bind.bind, Except.bind]
    rw [ih fun b hb => h b (List.mem_cons_of_mem _ hb)]
    simp [add_assoc]

private theorem zipIdx_range (n : ℕ) (v : ℕ → K) : ((List.range n).map v).zipIdx = (List.range n).map fun i => (v i, i) := by
  apply List.ext_getElem (by simp)
  intro i h1 h2
  simp

private theorem weight_eq (v : ℕ → K) (x : K) (i m : ℕ) :
    (List.range m).foldl (fun w j => if j ≠ i then w * ((x - v j) / (v i - v j)) else w) (1 : K)
      = ∏ j ∈ (Finset.range m).erase i, ((x - v j) / (v i - v j)) := by
  induction m with
  | zero => simp
  | succ m ih =>
    rw [List.range_succ, List.foldl_append, ih]
    simp only [List.foldl_cons, List.foldl_nil]
    split
    · rename_i h
      rw [Finset.range_add_one, Finset.erase_insert_of_ne h, Finset.prod_insert (by simp), mul_comm]
    · rename_i h
      push Not at h
      subst h
      rw [Finset.range_add_one, Finset.erase_insert (by simp), Finset.erase_eq_of_notMem (by simp)]

/-- **C41.**  Plain Lagrange interpolation gives the value of the interpolating polynomial, at the nodes and elsewhere. -/
theorem C41_lagrange (xs ys : List K) (hx : xs.Nodup) (p : K[X]) (hp : Interpolates p xs ys) (x : K) :
    lagrangeAt xs ys x = .ok (p.eval x) := by
  obtain ⟨hd, rfl⟩ := hp
  have hv : Set.InjOn (fun i => xs.getD i 0) (Finset.range xs.length) := by
    intro i hi j hj h
    simp only [Finset.coe_range, Set.mem_Iio] at hi hj
    simp only [getD_lt hi, getD_lt hj] at h
    exact (List.Nodup.getElem_inj_iff hx).1 h
  obtain ⟨n, hn⟩ : ∃ n, n = xs.length := ⟨_, rfl⟩
  obtain ⟨v, hvv⟩ : ∃ v : ℕ → K, v = fun i => xs.getD i 0 := ⟨_, rfl⟩
  have hxs : xs = (List.range n).map v := by rw [hn, hvv]; exact list_eq_range_map xs
  rw [← hn, ← hvv] at hv
  rw [← hn] at hd
  clear hn hvv hx
  subst hxs
  unfold lagrangeAt
  rw [foldlM_ok _ _ (fun q => (∏ j ∈ (Finset.range n).erase q.2, ((x - v j) / (q.1 - v j))) * p.eval q.1)]
  · rw [zero_add, zipIdx_range, List.map_map]
    have e := Lagrange.eq_interpolate_of_eval_eq (f := p) (fun i => p.eval (v i)) hv (by simpa using hd) fun i _ => rfl
    have : p.eval x = ∑ i ∈ Finset.range n, p.eval (v i) * ∏ j ∈ (Finset.range n).erase i, ((x - v j) / (v i - v j)) := by
      conv_lhs => rw [e]
      rw [Lagrange.interpolate_apply, eval_finset_sum]
      refine Finset.sum_congr rfl fun i _ => ?_
      rw [eval_mul, eval_C, Lagrange.basis, eval_prod]
      congr 1
      refine Finset.prod_congr rfl fun j _ => ?_
      rw [Lagrange.basisDivisor, eval_mul, eval_C, eval_sub, eval_X, eval_C, div_eq_mul_inv, mul_comm]
    rw [this]
    congr 1
    rw [← sum_range_list]
    congr 1
    apply List.map_congr_left
    intro i _
    simp only [Function.comp]
    ring
  · intro q hq r
    rw [zipIdx_range] at hq
    obtain ⟨i, hi, rfl⟩ := List.mem_map.1 hq
    have hi := List.mem_range.1 hi
    simp only [List.map_map, List.getElem?_map, List.getElem?_range hi, Option.map_some, Function.comp]
    rw [zipIdx_range, List.foldl_map, weight_eq]

private theorem splitLoop_flatten {α : Type} (q : ℕ) : ∀ (n k : ℕ) (l : List α), k ≤ n → l.length = n * q + k →
    (splitLoop q n k l).flatten = l
  | 0, k, l, hk, h => by
    have : l.length = 0 := by simpa [Nat.le_zero.1 hk] using h
    rw [List.eq_nil_of_length_eq_zero this]; rfl
  | n + 1, 0, l, _, h => by
    rw [splitLoop, List.flatten_cons, splitLoop_flatten q n 0 _ (Nat.zero_le _), List.take_append_drop]
    rw [List.length_drop, h, Nat.succ_mul]; omega
  | n + 1, k + 1, l, hk, h => by
    rw [splitLoop, List.flatten_cons, splitLoop_flatten q n k _ (Nat.le_of_succ_le_succ hk), List.take_append_drop]
    rw [List.length_drop, h, Nat.succ_mul]; omega

private theorem mapM_ok {α β : Type} (f : α → Except PyErr β) (g : α → β) (h : ∀ a, f a = .ok (g a)) (l : List α) :
    l.mapM f = .ok (l.map g) := by
  induction l with
  | nil => rfl
  | cons a l ih => rw [List.mapM_cons, h, ih]; rfl

/-- **C41.**  On arrays of any length, however they are split, evaluation without the compiled module gives the values of the
interpolating polynomial at the points of the array, in their order. -/
theorem C41_array (maxSize : ℕ) (hm : 0 < maxSize) (xs ys ws : List K) (hne : xs ≠ []) (hE : EvaluatesInterpolant xs ws)
    (p : K[X]) (hp : Interpolates p xs ys) (x : List K) :
    baryArray maxSize xs ys ws x = .ok (x.map fun t => p.eval t) := by
  have hb : ∀ t, baryPy xs ys ws t = .ok (p.eval t) := fun t => (hE ys p hp t).2
  have hr : ∀ parts : List (List K), parts.flatten = x →
      (do let results ← parts.mapM fun q : List K => q.mapM (baryPy xs ys ws); (.ok results.flatten : Except PyErr (List K)))
        = .ok (x.map fun t => p.eval t) := by
    intro parts h
    rw [mapM_ok _ (fun q => q.map fun t => p.eval t) (mapM_ok _ _ hb)]
    subst h
    simp [Bind.bind, Except.bind, List.map_flatten]
  unfold baryArray
  by_cases h : x.length ≤ maxSize
  · rw [if_pos h]
    exact hr [x] (by simp)
  · rw [if_neg h]
    have hn : (x.length * xs.length + maxSize - 1) / maxSize ≠ 0 := by
      have h1 : 1 ≤ xs.length := List.length_pos_of_ne_nil hne
      have h2 : x.length ≤ x.length * xs.length := Nat.le_mul_of_pos_right _ h1
      exact (Nat.div_pos (by omega) hm).ne'
    rw [arraySplit, if_neg hn]
    refine hr _ (splitLoop_flatten _ _ _ _ (Nat.mod_lt _ (Nat.pos_of_ne_zero hn)).le ?_)
    exact (Nat.div_add_mod _ _).symm

/-- Disagreement: the reversed copy of an interpolator loses the first two nodes (the slice `[-1:1:-1]`, interpolation.py:83), so
that a copy of the interpolator of `x ^ 2` through 0, 1 and 2 is constant. -/
theorem C41_violated_copyReverse : copyReverse [(0 : ℚ), 1, 2] [0, 1, 4] = ([2], [4]) ∧
    lagrangeAt [(0 : ℚ), 1, 2] [0, 1, 4] 3 = .ok 9 ∧ lagrangeAt [(2 : ℚ)] [4] 3 = .ok 4 := by decide +kernel

/-- an array of five points in parts of at most two -/
example : arraySplit [1, 2, 3, 4, 5] 3 = .ok [[1, 2], [3, 4], [5]] ∧
    baryArray 2 [(0 : ℚ), 1, 3] [1, 3, 1] (lagrangeWeights [0, 1, 3]) [0, 1, 2, 3, 4] = .ok [1, 3, 3, 1, -3] := by decide +kernel

end Pacal
