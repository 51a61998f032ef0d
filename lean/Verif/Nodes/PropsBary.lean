import Verif.Nodes.Weights
import Verif.Nodes.PropsNodes

/-!
# Property C41: barycentric evaluation is polynomial interpolation
-/

set_option linter.unusedSectionVars false

namespace Pacal
open Polynomial Nodes Mon
variable {K : Type} [Field K] [LinearOrder K] [IsStrictOrderedRing K]

/-- `p` is the interpolating polynomial of the points `(xs, ys)`: fewer coefficients than points (so that it is
unique), and the right value at each node. -/
def Interpolates (p : K[X]) (xs ys : List K) : Prop := p.degree < xs.length ∧ xs.map (fun x => p.eval x) = ys

/-- Weights `ws` are right for the nodes `xs`: both evaluators give the value of the interpolating polynomial,
for all values and at every point. -/
def EvaluatesInterpolant (xs ws : List K) : Prop :=
  ∀ (ys : List K) (p : K[X]), Interpolates p xs ys → ∀ x,
    bary xs ys ws x = .ok (p.eval x) ∧ baryPy xs ys ws x = .ok (p.eval x)

theorem getD_lt {xs : List K} {i : ℕ} (h : i < xs.length) : xs.getD i 0 = xs[i] := by
  simp [List.getElem?_eq_getElem h]

/-- there is exactly one interpolating polynomial for distinct nodes -/
theorem C41_unique (xs ys : List K) (hx : xs.Nodup) (hl : ys.length = xs.length) :
    ∃! p : K[X], Interpolates p xs ys := by
  have hv : Set.InjOn (fun i => xs.getD i 0) (Finset.range xs.length) := by
    intro i hi j hj h
    simp only [Finset.coe_range, Set.mem_Iio] at hi hj
    simp only [getD_lt hi, getD_lt hj] at h
    exact (List.Nodup.getElem_inj_iff hx).1 h
  refine ⟨Lagrange.interpolate (Finset.range xs.length) (fun i => xs.getD i 0) (fun i => ys.getD i 0), ?_, ?_⟩
  · refine ⟨by simpa using Lagrange.degree_interpolate_lt (fun i => ys.getD i 0) hv, ?_⟩
    apply List.ext_getElem (by simp [hl])
    intro i h1 h2
    rw [List.getElem_map]
    have hi : i < xs.length := by omega
    have := Lagrange.eval_interpolate_at_node (fun i => ys.getD i 0) hv (Finset.mem_range.2 hi)
    simp only [getD_lt hi, getD_lt h2] at this
    exact this
  · rintro q ⟨hd, hq⟩
    apply Lagrange.eq_interpolate_of_eval_eq (fun i => ys.getD i 0) hv
    · simpa using hd
    · intro i hi
      have hi := Finset.mem_range.1 hi
      subst hq
      simp [hi]

theorem evaluates_of_prop {n : ℕ} (hn : 1 ≤ n) {v w : ℕ → K} (hv : Set.InjOn v (Finset.range n))
    (hw : Prop' n v w) : EvaluatesInterpolant ((List.range n).map v) ((List.range n).map w) := by
  rintro ys p ⟨hd, rfl⟩ x
  rw [List.map_map]
  simp only [List.length_map, List.length_range] at hd
  exact ⟨bary_core hn v _ w hv hw hd (fun _ _ => rfl) x, baryPy_core hn v _ w hv hw hd (fun _ _ => rfl) x⟩

/-- **C41.** With the weights of `BarycentricInterpolator`, for every non-empty set of distinct nodes in any
order, all values and all points, evaluation gives the value of the interpolating polynomial. -/
theorem C41_general (xs : List K) (hne : xs ≠ []) (hx : xs.Nodup) : EvaluatesInterpolant xs (lagrangeWeights xs) := by
  have hl : 1 ≤ xs.length := List.length_pos_of_ne_nil hne
  have hv : Set.InjOn (fun i => xs.getD i 0) (Finset.range xs.length) := by
    intro i hi j hj h
    simp only [Finset.coe_range, Set.mem_Iio] at hi hj
    simp only [getD_lt hi, getD_lt hj] at h
    exact (List.Nodup.getElem_inj_iff hx).1 h
  have := evaluates_of_prop hl hv (w := Lagrange.nodalWeight (Finset.range xs.length) fun i => xs.getD i 0)
    ⟨1, one_ne_zero, fun i _ => (one_mul _).symm⟩
  rw [← lagrangeWeights_eq, ← list_eq_range_map] at this
  exact this

/-- At a node the stored value is returned, whatever the weights. -/
theorem C41_at_node (xs ys ws : List K) (hx : xs.Nodup) (hy : ys.length = xs.length) (hw : ws.length = xs.length)
    (i : ℕ) (hi : i < xs.length) : bary xs ys ws xs[i] = .ok (ys[i]'(by omega)) := by
  have hv : Set.InjOn (fun i => xs.getD i 0) (Finset.range xs.length) := by
    intro i hi j hj h
    simp only [Finset.coe_range, Set.mem_Iio] at hi hj
    simp only [getD_lt hi, getD_lt hj] at h
    exact (List.Nodup.getElem_inj_iff hx).1 h
  have h := bary_hit (fun i => xs.getD i 0) (fun i => ys.getD i 0) (fun i => ws.getD i 0) hv hi
  rw [← list_eq_range_map xs, ← hy, ← list_eq_range_map ys, hy, ← hw, ← list_eq_range_map ws] at h
  simpa only [getD_lt hi, getD_lt (show i < ys.length by omega)] using h

theorem injOn_of_lt {n : ℕ} {v : ℕ → ℝ} (h : ∀ i j, i < j → j < n → v i < v j) : Set.InjOn v (Finset.range n) := by
  intro i hi j hj hij
  simp only [Finset.coe_range, Set.mem_Iio] at hi hj
  rcases lt_trichotomy i j with hl | hl | hl
  · exact absurd hij (h i j hl hj).ne
  · exact hl
  · exact absurd hij (h j i hl hi).ne'

theorem nodeAt_affine (M : ℕ) (a b : ℝ) (k : ℕ) :
    nodeAt (M + 2) a b k = 1 / 2 * (a + b) + -(1 / 2 * (b - a)) * cN M k := by
  unfold nodeAt point cN
  rw [show (((M + 2 : ℕ) : ℝ) - 1) = (M : ℝ) + 1 by push_cast; ring]
  ring

/-- The closed-form weights of `ChebyshevInterpolator` (also of `chebspace`) are right for its grid. -/
theorem C41_cheb {n : ℕ} (hn : 2 ≤ n) {a b : ℝ} (hab : a < b) : EvaluatesInterpolant (cheb n a b) (chebWeights n) := by
  obtain ⟨M, rfl⟩ : ∃ M, n = M + 2 := ⟨n - 2, by omega⟩
  rw [cheb_eq hn, chebWeights_eq]
  refine evaluates_of_prop (by omega) (injOn_of_lt fun i j hij hj => nodeAt_lt hab hij hj) ?_
  have h := (prop_cheb M).affine (1 / 2 * (a + b)) (β := -(1 / 2 * (b - a))) (by intro h; linarith)
  rwa [← funext (nodeAt_affine M a b)] at h

/-- The weights of the interpolator without the left end. -/
theorem C41_cheb_noL {n : ℕ} (hn : 2 ≤ n) {a b : ℝ} (hab : a < b) :
    EvaluatesInterpolant (cheb n a b).tail (noLWeights (n - 1)) := by
  obtain ⟨M, rfl⟩ : ∃ M, n = M + 2 := ⟨n - 2, by omega⟩
  obtain ⟨s, hs, e⟩ := noLWeights_eq M
  have e1 : (cheb (M + 2) a b).tail = (List.range (M + 1)).map fun j => nodeAt (M + 2) a b (j + 1) := by
    rw [cheb_eq hn]
    apply List.ext_getElem (by simp)
    intro i h1 h2
    simp
  rw [e1, show M + 2 - 1 = M + 1 from rfl, e]
  refine evaluates_of_prop (by omega) (injOn_of_lt fun i j hij hj => nodeAt_lt hab (by omega) (by omega)) ?_
  have h := ((prop_noL M).smul hs).affine (1 / 2 * (a + b)) (β := -(1 / 2 * (b - a))) (by intro h; linarith)
  simpa only [nodeAt_affine M a b] using h

/-- The weights of the interpolator without the right end. -/
theorem C41_cheb_noR {n : ℕ} (hn : 2 ≤ n) {a b : ℝ} (hab : a < b) :
    EvaluatesInterpolant (cheb n a b).dropLast (noRWeights (n - 1)) := by
  obtain ⟨M, rfl⟩ : ∃ M, n = M + 2 := ⟨n - 2, by omega⟩
  obtain ⟨s, hs, e⟩ := noRWeights_eq M
  have e1 : (cheb (M + 2) a b).dropLast = (List.range (M + 1)).map fun j => nodeAt (M + 2) a b j := by
    rw [cheb_eq hn]
    apply List.ext_getElem (by simp)
    intro i h1 h2
    simp
  rw [e1, show M + 2 - 1 = M + 1 from rfl, e]
  refine evaluates_of_prop (by omega) (injOn_of_lt fun i j hij hj => nodeAt_lt hab hij (by omega)) ?_
  have h := ((prop_noR M).smul hs).affine (1 / 2 * (a + b)) (β := -(1 / 2 * (b - a))) (by intro h; linarith)
  simpa only [nodeAt_affine M a b] using h

/-- The weights of `ChebyshevInterpolator1` (also of `chebspace1`). -/
theorem C41_cheb1 {n : ℕ} (hn : 1 ≤ n) {a b : ℝ} (hab : a < b) : EvaluatesInterpolant (cheb1 n a b) (cheb1Weights n) := by
  rw [cheb1_eq, cheb1Weights_eq]
  refine evaluates_of_prop hn (injOn_of_lt fun i j hij hj => nodeAt1_lt hab hij hj) ?_
  have h := (prop_cheb1 hn).affine (1 / 2 * (a + b)) (β := -(1 / 2 * (b - a))) (by intro h; linarith)
  have e : nodeAt1 n a b = fun i => 1 / 2 * (a + b) + -(1 / 2 * (b - a)) * Real.cos (ang n i) := by
    funext i
    unfold nodeAt1 point ang
    ring
  rwa [e]

/-- Polynomials of degree below the number of nodes are reproduced exactly. -/
theorem C41_reproduces {n : ℕ} (hn : 2 ≤ n) {a b : ℝ} (hab : a < b) (p : ℝ[X]) (hd : p.degree < n) (x : ℝ) :
    bary (cheb n a b) ((cheb n a b).map fun x => p.eval x) (chebWeights n) x = .ok (p.eval x) :=
  (C41_cheb hn hab _ p ⟨by rwa [(C39_cheb_grid hn hab).length], rfl⟩ x).1

/-- The weights of the logarithmic interpolator are those of the ordinary grid; they are wrong for its nodes:
already with three nodes on `[1, 4]` the function `x ^ 2` is not reproduced at `3`. -/
theorem C41_violated_log : chebLog 3 1 4 = .ok [1, 2, 4] ∧ ¬ EvaluatesInterpolant [(1 : ℝ), 2, 4] (chebWeights 3) := by
  constructor
  · unfold chebLog
    rw [if_pos (by norm_num)]
    have h4 : √(4 : ℝ) = 2 := by rw [show (4 : ℝ) = 2 ^ 2 by norm_num]; exact Real.sqrt_sq (by norm_num)
    simp [List.range_succ, pointLog]
    norm_num [h4]
  intro h
  have := (h [1, 4, 16] (X ^ 2) ⟨by rw [degree_X_pow]; norm_num, by norm_num⟩ 3).1
  unfold bary chebWeights alt at this
  simp [List.range_succ, baryLoop] at this
  norm_num at this

/-- evaluation of the interpolant through `(0, 1), (1, 3), (3, 1)`, at `2` -/
example : bary [0, 1, 3] [1, 3, 1] (lagrangeWeights [0, 1, 3]) (2 : ℚ) = .ok 3 := by decide +kernel
example : EvaluatesInterpolant [(0 : ℚ), 1, 3] (lagrangeWeights [0, 1, 3]) :=
  C41_general _ (by simp) (by decide)

end Pacal
