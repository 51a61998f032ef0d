import Verif.Asymp.Model
import Verif.Nodes.PropsBary
import Verif.Transform.Props

/-! Helper lemmas: the interpolators without the change of variable. -/

namespace Pacal.Asymp
open Nodes Mon Transform Real Polynomial

/-- the nodes of a base class -/
noncomputable def grid (k : Base) (n : ℕ) (a b : ℝ) : List ℝ :=
  match k with
  | .full => cheb n a b
  | .noL => (cheb n a b).tail
  | .noR => (cheb n a b).dropLast

theorem interp_nodes (k : Base) (n : ℕ) (a b : ℝ) : (k.interp a b).nodes n = grid k n a b := by
  cases k <;> rfl

theorem interp_ok (k : Base) (a b : ℝ) : InterpOK (k.interp a b) (fun n => 2 * n - 1) 3 := by
  cases k
  · exact C40_cheb _
  · exact C40_cheb_noL _
  · exact C40_cheb_noR _

theorem next_ge (k : ℕ) : 3 ≤ (fun n => 2 * n - 1)^[k] 3 := by
  induction k with
  | zero => simp
  | succ k ih => rw [Function.iterate_succ_apply']; omega

/-- an interpolator can always be built, and stores the values of `f` at the nodes of some grid -/
theorem build_ok (s : Setting) (hs : 3 ≤ s.maxn) (k : Base) (f : ℝ → ℝ) (a b : ℝ) :
    ∃ n, 3 ≤ n ∧ build s k f a b = .ok ⟨k, graph f (grid k n a b)⟩ := by
  obtain ⟨st, e, h, h1, ⟨j, h2⟩, _⟩ := C37_interpolate s.par (k.interp a b) (fun n => 2 * n - 1) 3 (interp_ok k a b) f s.maxn hs
    s.maxn (by omega)
  refine ⟨st.n, h2 ▸ next_ge j, ?_⟩
  unfold build
  rw [h]
  simp only [bind, Except.bind]
  rw [h1, interp_nodes]

theorem cheb_length {n : ℕ} (hn : 2 ≤ n) (a b : ℝ) : (cheb n a b).length = n := by rw [cheb_eq hn]; simp

theorem weights_length (k : Base) (m : ℕ) : (k.weights m).length = m := by
  cases k <;> simp [Base.weights, chebWeights, noLWeights, noRWeights, alt]

theorem baryLoop_graph {x : ℝ} (f : ℝ → ℝ) : ∀ (xs ws : List ℝ), ws.length = xs.length → x ∈ xs → ∀ num den,
    baryLoop x (xs.zip ((xs.map f).zip ws)) num den = .inl (f x)
  | [], _, _, h => by simp at h
  | y :: ys, [], h, _ => by simp at h
  | y :: ys, w :: ws, hl, h => by
    intro num den
    simp only [List.map_cons, List.zip_cons_cons, baryLoop]
    by_cases e : x = y
    · rw [if_pos e, e]
    · rw [if_neg e]
      exact baryLoop_graph f ys ws (by simpa using hl) ((List.mem_cons.1 h).resolve_left e) _ _

/-- at a node the stored value is returned -/
theorem eval_node (k : Base) (f : ℝ → ℝ) (xs : List ℝ) {x : ℝ} (hx : x ∈ xs) : k.eval (graph f xs) x = .ok (f x) := by
  unfold Base.eval graph
  rw [List.map_map, List.map_map, List.length_map]
  have e1 : xs.map (Prod.fst ∘ fun x => (x, f x)) = xs := by simp [Function.comp_def]
  have e2 : xs.map (Prod.snd ∘ fun x => (x, f x)) = xs.map f := by simp [Function.comp_def]
  rw [e1, e2]
  unfold bary
  rw [baryLoop_graph f xs _ (weights_length k _) hx]

theorem nodeAt_inj {M : ℕ} {a b : ℝ} (hab : a ≠ b) : Set.InjOn (nodeAt (M + 2) a b) (Finset.range (M + 2)) := by
  intro i hi j hj h
  simp only [Finset.coe_range, Set.mem_Iio] at hi hj
  rw [nodeAt_affine, nodeAt_affine] at h
  have hb : -(1 / 2 * (b - a)) ≠ 0 := by
    intro h'; apply hab; linarith
  have := mul_left_cancel₀ hb (add_left_cancel h)
  exact cN_inj (by omega) (by omega) this

theorem tail_eq {n : ℕ} (hn : 2 ≤ n) (a b : ℝ) :
    (cheb n a b).tail = (List.range (n - 1)).map fun j => nodeAt n a b (j + 1) := by
  rw [cheb_eq hn]
  apply List.ext_getElem (by simp)
  intro i h1 h2
  simp

theorem dropLast_eq {n : ℕ} (hn : 2 ≤ n) (a b : ℝ) :
    (cheb n a b).dropLast = (List.range (n - 1)).map fun j => nodeAt n a b j := by
  rw [cheb_eq hn]
  apply List.ext_getElem (by simp)
  intro i h1 h2
  simp

/-- the weights are right, for intervals in either direction -/
theorem evaluates (k : Base) {n : ℕ} (hn : 2 ≤ n) {a b : ℝ} (hab : a ≠ b) :
    EvaluatesInterpolant (grid k n a b) (k.weights (grid k n a b).length) := by
  obtain ⟨M, rfl⟩ : ∃ M, n = M + 2 := ⟨n - 2, by omega⟩
  have hb : -(1 / 2 * (b - a)) ≠ 0 := by
    intro h'; apply hab; linarith
  have hinj := nodeAt_inj (M := M) hab
  cases k with
  | full =>
    simp only [grid, Base.weights]
    rw [cheb_length hn, cheb_eq hn, chebWeights_eq]
    refine evaluates_of_prop (by omega) hinj ?_
    have h := (prop_cheb M).affine (1 / 2 * (a + b)) hb
    rwa [← funext (nodeAt_affine M a b)] at h
  | noL =>
    obtain ⟨s, hs, e⟩ := noLWeights_eq M
    simp only [grid, Base.weights]
    rw [tail_eq hn, List.length_map, List.length_range, show M + 2 - 1 = M + 1 from rfl, e]
    refine evaluates_of_prop (by omega) ?_ ?_
    · intro i hi j hj h
      simp only [Finset.coe_range, Set.mem_Iio] at hi hj
      have := hinj (by simpa using hi) (by simpa using hj) h
      omega
    · have h := ((prop_noL M).smul hs).affine (1 / 2 * (a + b)) hb
      simpa only [nodeAt_affine M a b] using h
  | noR =>
    obtain ⟨s, hs, e⟩ := noRWeights_eq M
    simp only [grid, Base.weights]
    rw [dropLast_eq hn, List.length_map, List.length_range, show M + 2 - 1 = M + 1 from rfl, e]
    refine evaluates_of_prop (by omega) ?_ ?_
    · intro i hi j hj h
      simp only [Finset.coe_range, Set.mem_Iio] at hi hj
      exact hinj (by simp only [Finset.coe_range, Set.mem_Iio]; omega) (by simp only [Finset.coe_range, Set.mem_Iio]; omega) h
    · have h := ((prop_noR M).smul hs).affine (1 / 2 * (a + b)) hb
      simpa only [nodeAt_affine M a b] using h

theorem cheb_nodup {n : ℕ} (hn : 2 ≤ n) {a b : ℝ} (hab : a ≠ b) : (cheb n a b).Nodup := by
  obtain ⟨M, rfl⟩ : ∃ M, n = M + 2 := ⟨n - 2, by omega⟩
  rw [cheb_eq hn]
  refine List.Nodup.map_on ?_ List.nodup_range
  intro i hi j hj h
  exact nodeAt_inj hab (by simpa using hi) (by simpa using hj) h

theorem grid_nodup (k : Base) {n : ℕ} (hn : 2 ≤ n) {a b : ℝ} (hab : a ≠ b) : (grid k n a b).Nodup := by
  have h := cheb_nodup hn hab
  cases k
  · exact h
  · exact h.sublist (List.tail_sublist _)
  · exact h.sublist (List.dropLast_sublist _)

theorem grid_length (k : Base) {n : ℕ} (hn : 3 ≤ n) (a b : ℝ) : 2 ≤ (grid k n a b).length := by
  cases k <;> simp [grid, cheb_length (show 2 ≤ n by omega)] <;> omega

/-- the interpolant is a polynomial through the stored points -/
theorem eval_poly (k : Base) {n : ℕ} (hn : 3 ≤ n) {a b : ℝ} (hab : a ≠ b) (g : ℝ → ℝ) :
    ∃ q : ℝ[X], q.degree < (grid k n a b).length ∧ (∀ x ∈ grid k n a b, q.eval x = g x) ∧
      ∀ x, k.eval (graph g (grid k n a b)) x = .ok (q.eval x) := by
  obtain ⟨q, hq, _⟩ := C41_unique (grid k n a b) ((grid k n a b).map g) (grid_nodup k (by omega) hab) (by simp)
  refine ⟨q, hq.1, ?_, fun x => ?_⟩
  · intro x hx
    have := List.map_inj_left.1 hq.2
    exact this x hx
  · have h := (evaluates k (show 2 ≤ n by omega) hab _ q hq x).1
    unfold Base.eval graph
    rw [List.map_map, List.map_map, List.length_map]
    have e1 : (grid k n a b).map (Prod.fst ∘ fun x => (x, g x)) = grid k n a b := by simp [Function.comp_def]
    have e2 : (grid k n a b).map (Prod.snd ∘ fun x => (x, g x)) = (grid k n a b).map g := by simp [Function.comp_def]
    rw [e1, e2]
    exact h

/-- polynomials of low degree are reproduced -/
theorem eval_repro (k : Base) {n : ℕ} (hn : 3 ≤ n) {a b : ℝ} (hab : a ≠ b) {g : ℝ → ℝ} {r : ℝ[X]} (hr : r.degree < 2)
    (hg : ∀ x ∈ grid k n a b, g x = r.eval x) (x : ℝ) : k.eval (graph g (grid k n a b)) x = .ok (r.eval x) := by
  obtain ⟨q, hd, hq, he⟩ := eval_poly k hn hab g
  obtain ⟨q', h', hu⟩ := C41_unique (grid k n a b) ((grid k n a b).map g) (grid_nodup k (by omega) hab) (by simp)
  have hlen := grid_length k hn a b
  have e1 : q = q' := hu q ⟨hd, List.map_congr_left hq⟩
  have e2 : r = q' := hu r ⟨hr.trans_le (by exact_mod_cast hlen), List.map_congr_left fun x hx => (hg x hx).symm⟩
  rw [he x, e1, ← e2]

theorem cheb_mem_uIcc {n : ℕ} (hn : 2 ≤ n) (a b : ℝ) : ∀ x ∈ cheb n a b, x ∈ Set.uIcc a b := by
  intro x hx
  rw [cheb_eq hn] at hx
  obtain ⟨k, _, rfl⟩ := List.mem_map.1 hx
  unfold nodeAt
  rcases le_total a b with h | h
  · rw [Set.uIcc_of_le h]; exact point_mem h _
  · rw [Set.uIcc_of_ge h]
    have e : ∀ t, point a b t = a + b - point b a t := by intro t; unfold point; ring
    rw [e]
    have := point_mem h ((k : ℝ) * π / ((n : ℝ) - 1))
    constructor <;> linarith [this.1, this.2]

theorem grid_sub (k : Base) (n : ℕ) (a b : ℝ) : ∀ x ∈ grid k n a b, x ∈ cheb n a b := by
  intro x hx
  cases k
  · exact hx
  · exact List.mem_of_mem_tail hx
  · exact List.mem_of_mem_dropLast hx

theorem grid_mem (k : Base) {n : ℕ} (hn : 2 ≤ n) (a b : ℝ) : ∀ x ∈ grid k n a b, x ∈ Set.uIcc a b :=
  fun x hx => cheb_mem_uIcc hn a b x (grid_sub k n a b x hx)

theorem first_mem (k : Base) (hk : k ≠ .noL) {n : ℕ} (hn : 3 ≤ n) (a b : ℝ) : a ∈ grid k n a b := by
  have h0 : nodeAt n a b 0 = a := by simp [nodeAt, point_zero]
  cases k
  · simp only [grid]; rw [cheb_eq (by omega)]
    exact List.mem_map.2 ⟨0, by simp; omega, h0⟩
  · exact absurd rfl hk
  · simp only [grid]; rw [dropLast_eq (by omega)]
    exact List.mem_map.2 ⟨0, by simp; omega, h0⟩

theorem last_mem (k : Base) (hk : k ≠ .noR) {n : ℕ} (hn : 3 ≤ n) (a b : ℝ) : b ∈ grid k n a b := by
  have h0 : nodeAt n a b (n - 1) = b := nodeAt_last (by omega) a b
  cases k
  · simp only [grid]; rw [cheb_eq (by omega)]
    exact List.mem_map.2 ⟨n - 1, by simp; omega, h0⟩
  · simp only [grid]; rw [tail_eq (by omega)]
    exact List.mem_map.2 ⟨n - 2, by simp; omega, by rw [show n - 2 + 1 = n - 1 by omega]; exact h0⟩
  · exact absurd rfl hk

theorem last_not_mem {n : ℕ} (hn : 3 ≤ n) {a b : ℝ} (hab : a ≠ b) : b ∉ grid .noR n a b := by
  simp only [grid]
  rw [dropLast_eq (by omega)]
  intro h
  obtain ⟨i, hi, h⟩ := List.mem_map.1 h
  have h0 : nodeAt n a b (n - 1) = b := nodeAt_last (by omega) a b
  obtain ⟨M, rfl⟩ : ∃ M, n = M + 2 := ⟨n - 2, by omega⟩
  have := nodeAt_inj hab (by simp at hi ⊢; omega) (by simp) (h.trans h0.symm)
  simp at hi this; omega

theorem first_not_mem {n : ℕ} (hn : 3 ≤ n) {a b : ℝ} (hab : a ≠ b) : a ∉ grid .noL n a b := by
  simp only [grid]
  rw [tail_eq (by omega)]
  intro h
  obtain ⟨i, hi, h⟩ := List.mem_map.1 h
  have h0 : nodeAt n a b 0 = a := by simp [nodeAt, point_zero]
  obtain ⟨M, rfl⟩ : ∃ M, n = M + 2 := ⟨n - 2, by omega⟩
  have := nodeAt_inj hab (by simp at hi ⊢; omega) (by simp) (h.trans h0.symm)
  omega

/-- there is a node between the ends -/
theorem inner_mem {n : ℕ} (hn : 3 ≤ n) {a b : ℝ} (hab : a ≠ b) : ∃ x ∈ grid .full n a b, x ≠ a ∧ x ≠ b := by
  have h0 : nodeAt n a b 0 = a := by simp [nodeAt, point_zero]
  have h1 : nodeAt n a b (n - 1) = b := nodeAt_last (by omega) a b
  obtain ⟨M, rfl⟩ : ∃ M, n = M + 2 := ⟨n - 2, by omega⟩
  refine ⟨nodeAt (M + 2) a b 1, ?_, fun h => ?_, fun h => ?_⟩
  · simp only [grid]
    rw [cheb_eq (by omega)]
    exact List.mem_map.2 ⟨1, by simp, rfl⟩
  · have := nodeAt_inj hab (by simp) (by simp) (h.trans h0.symm)
    omega
  · have := nodeAt_inj hab (by simp) (by simp) (h.trans h1.symm)
    omega

end Pacal.Asymp
