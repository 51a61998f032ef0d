import Verif.Nodes.Model
import Verif.Util.PropsAdaptive
import Mathlib.Analysis.SpecialFunctions.Trigonometric.Inverse
import Mathlib.Tactic.Linarith
import Mathlib.Tactic.FieldSimp
import Mathlib.Tactic.Ring

/-! Helper lemmas about the node families. -/

namespace Pacal
namespace Nodes
open Real Mon

theorem interleave_range {α : Type*} : ∀ (m k : ℕ) (h : ℕ → α), (m = k ∨ m = k + 1) →
    interleave ((List.range m).map fun i => h (2 * i)) ((List.range k).map fun i => h (2 * i + 1))
      = (List.range (m + k)).map h
  | 0, k, h, hm => by
    obtain rfl : k = 0 := by omega
    simp [interleave]
  | m + 1, k, h, hm => by
    rw [List.range_succ_eq_map, List.map_cons, List.map_map, interleave]
    have := interleave_range k m (fun j => h (j + 1)) (by omega)
    have e : m + 1 + k = (k + m) + 1 := by omega
    rw [e, List.range_succ_eq_map, List.map_cons, List.map_map]
    congr 1
termination_by m k => m + k

theorem point_zero (a b : ℝ) : point a b 0 = a := by simp [point]; ring
theorem point_pi (a b : ℝ) : point a b π = b := by simp [point]; ring

theorem point_lt {a b s t : ℝ} (hab : a < b) (hs : 0 ≤ s) (ht : t ≤ π) (hst : s < t) :
    point a b s < point a b t := by
  have := Real.cos_lt_cos_of_nonneg_of_le_pi hs ht hst
  unfold point
  nlinarith

theorem point_mem {a b : ℝ} (hab : a ≤ b) (t : ℝ) : a ≤ point a b t ∧ point a b t ≤ b := by
  have h1 := Real.cos_le_one t
  have h2 := Real.neg_one_le_cos t
  unfold point
  constructor <;> nlinarith

/-- the `k`-th of `n` nodes of the second kind -/
noncomputable def nodeAt (n : ℕ) (a b : ℝ) (k : ℕ) : ℝ := point a b ((k : ℝ) * π / ((n : ℝ) - 1))

theorem nodeAt_last {n : ℕ} (hn : 2 ≤ n) (a b : ℝ) : nodeAt n a b (n - 1) = b := by
  have h : (n : ℝ) - 1 ≠ 0 := by
    have : (2 : ℝ) ≤ n := by exact_mod_cast hn
    linarith
  have : ((n - 1 : ℕ) : ℝ) * π / ((n : ℝ) - 1) = π := by
    rw [Nat.cast_sub (by omega)]; push_cast; field_simp
  rw [nodeAt, this, point_pi]

/-- setting the end points exactly changes nothing in exact arithmetic -/
theorem cheb_eq {n : ℕ} (hn : 2 ≤ n) (a b : ℝ) : cheb n a b = (List.range n).map (nodeAt n a b) := by
  unfold cheb
  rw [if_neg (by omega)]
  apply List.ext_getElem
  · simp
  · intro i h1 h2
    simp only [List.getElem_set, List.getElem_map, List.getElem_range]
    split
    · rename_i h; subst h; exact (nodeAt_last hn a b).symm
    · split
      · rename_i h; subst h; simp [nodeAt, point_zero]
      · rfl

theorem inc_eq (n : ℕ) (a b : ℝ) : inc n a b = (List.range ((n - 1) / 2)).map fun i => nodeAt n a b (2 * i + 1) := rfl

/-- every second node of the finer grid is a node of the coarser one -/
theorem nodeAt_double {n : ℕ} (hn : 2 ≤ n) (a b : ℝ) (k : ℕ) : nodeAt (2 * n - 1) a b (2 * k) = nodeAt n a b k := by
  unfold nodeAt
  congr 1
  have h : (n : ℝ) - 1 ≠ 0 := by
    have : (2 : ℝ) ≤ n := by exact_mod_cast hn
    linarith
  rw [Nat.cast_sub (by omega)]
  push_cast
  rw [show (2 * (n : ℝ) - 1 - 1) = 2 * ((n : ℝ) - 1) by ring]
  field_simp

theorem nodeAt_lt {n : ℕ} {a b : ℝ} (hab : a < b) {i j : ℕ} (hij : i < j) (hj : j < n) :
    nodeAt n a b i < nodeAt n a b j := by
  have h : (0 : ℝ) < (n : ℝ) - 1 := by
    have : (2 : ℝ) ≤ n := by exact_mod_cast (show 2 ≤ n by omega)
    linarith
  apply point_lt hab (by positivity)
  · rw [div_le_iff₀ h]
    have : (j : ℝ) ≤ (n : ℝ) - 1 := by
      have : ((j + 1 : ℕ) : ℝ) ≤ n := by exact_mod_cast hj
      push_cast at this; linarith
    nlinarith [Real.pi_pos]
  · apply div_lt_div_of_pos_right _ h
    exact mul_lt_mul_of_pos_right (by exact_mod_cast hij) Real.pi_pos

/-- the `i`-th of `n` nodes of the first kind -/
noncomputable def nodeAt1 (n : ℕ) (a b : ℝ) (i : ℕ) : ℝ := point a b (((2 * i + 1 : ℕ) : ℝ) * π / (2 * (n : ℝ)))

theorem cheb1_eq (n : ℕ) (a b : ℝ) : cheb1 n a b = (List.range n).map (nodeAt1 n a b) := rfl
theorem inc1_eq (n : ℕ) (a b : ℝ) :
    inc1 n a b = ((List.range n).filter fun i => i % 3 ≠ 1).map (nodeAt1 n a b) := rfl

theorem nodeAt1_triple {n : ℕ} (hn : 1 ≤ n) (a b : ℝ) (i : ℕ) :
    nodeAt1 (3 * n) a b (3 * i + 1) = nodeAt1 n a b i := by
  unfold nodeAt1
  congr 1
  have h : (n : ℝ) ≠ 0 := by
    have : (1 : ℝ) ≤ n := by exact_mod_cast hn
    linarith
  push_cast
  field_simp
  ring

theorem angle1_lt {n i : ℕ} (hi : i < n) : ((2 * i + 1 : ℕ) : ℝ) * π / (2 * (n : ℝ)) < π := by
  have hn : (0 : ℝ) < n := by exact_mod_cast (show 0 < n by omega)
  rw [div_lt_iff₀ (by positivity)]
  have : ((2 * i + 1 : ℕ) : ℝ) < 2 * (n : ℝ) := by
    have : ((2 * i + 1 : ℕ) : ℝ) < ((2 * n : ℕ) : ℝ) := by exact_mod_cast (show 2 * i + 1 < 2 * n by omega)
    push_cast at this ⊢
    linarith
  nlinarith [Real.pi_pos]

theorem angle1_pos {n i : ℕ} (hi : i < n) : 0 < ((2 * i + 1 : ℕ) : ℝ) * π / (2 * (n : ℝ)) := by
  have hn : (0 : ℝ) < n := by exact_mod_cast (show 0 < n by omega)
  have := Real.pi_pos
  positivity

theorem nodeAt1_lt {n : ℕ} {a b : ℝ} (hab : a < b) {i j : ℕ} (hij : i < j) (hj : j < n) :
    nodeAt1 n a b i < nodeAt1 n a b j := by
  have hn : (0 : ℝ) < n := by exact_mod_cast (show 0 < n by omega)
  apply point_lt hab (angle1_pos (by omega)).le (angle1_lt hj).le
  apply div_lt_div_of_pos_right _ (by positivity)
  exact mul_lt_mul_of_pos_right (by exact_mod_cast (show 2 * i + 1 < 2 * j + 1 by omega)) Real.pi_pos

theorem nodeAt1_mem {n : ℕ} {a b : ℝ} (hab : a < b) {i : ℕ} (hi : i < n) :
    a < nodeAt1 n a b i ∧ nodeAt1 n a b i < b := by
  constructor
  · have := point_lt hab le_rfl (angle1_lt hi).le (angle1_pos hi)
    rwa [point_zero] at this
  · have := point_lt hab (angle1_pos hi).le le_rfl (angle1_lt hi)
    rwa [point_pi] at this

theorem pairwise_range_map {α : Type*} {r : α → α → Prop} {n : ℕ} {f : ℕ → α}
    (h : ∀ i j, i < j → j < n → r (f i) (f j)) : ((List.range n).map f).Pairwise r := by
  rw [List.pairwise_map]
  have := List.pairwise_lt_range (n := n)
  refine List.Pairwise.imp_of_mem ?_ this
  intro i j _ hj hij
  exact h i j hij (List.mem_range.1 hj)

theorem inner_range {α : Type*} (n : ℕ) (f : ℕ → α) :
    inner ((List.range n).map f) = (List.range (n - 2)).map fun i => f (i + 1) := by
  unfold inner
  apply List.ext_getElem
  · simp; omega
  · intro i h1 h2
    simp

/-- the indices of the finer grid are those of the coarser one and the new ones -/
theorem range_triple_perm (n : ℕ) :
    ((List.range n).map (fun i => 3 * i + 1) ++ (List.range (3 * n)).filter (fun i => i % 3 ≠ 1)).Perm
      (List.range (3 * n)) := by
  apply (List.perm_ext_iff_of_nodup _ List.nodup_range).2
  · intro i
    simp only [List.mem_append, List.mem_map, List.mem_range, List.mem_filter, decide_eq_true_eq]
    constructor
    · rintro (⟨j, hj, rfl⟩ | ⟨h, _⟩) <;> omega
    · intro h
      by_cases h3 : i % 3 = 1
      · exact .inl ⟨i / 3, by omega, by omega⟩
      · exact .inr ⟨h, h3⟩
  · refine List.Nodup.append ?_ (List.nodup_range.filter _) ?_
    · exact List.nodup_range.map fun i j (h : 3 * i + 1 = 3 * j + 1) => by omega
    · intro i h1 h2
      simp only [List.mem_map, List.mem_filter, decide_eq_true_eq] at h1 h2
      obtain ⟨j, _, rfl⟩ := h1
      omega

/-- the angle shift for the logarithmic grid -/
noncomputable def nodeAtLog (n : ℕ) (a b : ℝ) (k : ℕ) : ℝ := pointLog a b ((k : ℝ) * π / ((n : ℝ) - 1))

end Nodes
end Pacal
