import Verif.Sparse.Interp

/-!
C43 (sparse grids: index sets, coefficients, refinement), C44 (dense grids) and C61 (values of the sparse grid interpolator).

Arithmetic is exact; the interpolated function `f` is any real function of a list of coordinates, `stop` is any rule for
stopping the refinement.  Numbers of nodes: 11, 21, 41, … on levels 1, 2, 3, … (`lvl`).
-/

namespace Pacal
namespace Sparse
open Nodes Polynomial

/-! ### C43 -/

/-- **C43**: every admissible combination of levels (`d` levels `≥ 1` with sum in `q-d+1, …, q`) is used exactly once; the
call is rejected exactly if `q < d` -/
theorem C43_index_set {q d : ℕ} (hd : 1 ≤ d) :
    (q < d → genQ q d = .error .assertion) ∧
    (d ≤ q → ∃ Q, genQ q d = .ok Q ∧ Q.Nodup ∧ ∀ p : List ℕ, p ∈ Q ↔ p.length = d ∧ (∀ e ∈ p, 1 ≤ e) ∧ q - d + 1 ≤ p.sum ∧ p.sum ≤ q) := by
  constructor
  · intro h
    rw [genQ, if_neg (by omega)]
  · intro h
    obtain ⟨Q, hQ⟩ : ∃ Q, genQ q d = .ok Q := by rw [genQ, if_pos (by omega)]; exact ⟨_, rfl⟩
    refine ⟨Q, hQ, nodup_genQ hd hQ, fun p => (mem_genQ hd h hQ).trans ?_⟩
    have : q + 1 ≤ p.sum + d ↔ q - d + 1 ≤ p.sum := by omega
    rw [this]

example : genQ 4 2 = .ok [[1, 2], [2, 1], [1, 3], [2, 2], [3, 1]] := by decide

/-- **C43**: the coefficients of the combinations sum to one -/
theorem C43_coefficients {q d : ℕ} (hd : 1 ≤ d) (hq : d ≤ q) {Q : List (List ℕ)} (h : genQ q d = .ok Q) :
    (Q.map fun p => coef q d p.sum).sum = 1 := by
  have hs : ∀ d : ℕ, ((List.replicate d ((fun _ => 1, 1, 1) : (ℕ → ℚ) × ℕ × ℚ)).map fun t => t.2.1).sum = d := by intro d; simp
  have := comb_exact (K := ℚ) (ts := List.replicate d (fun _ => 1, 1, 1)) (q := q) (Q := Q) (by
      intro hc
      have := congrArg List.length hc
      simp at this
      omega)
    (by simpa using hq) (by simpa using h) (by rw [hs]; exact hq) (by
      intro t ht k hk
      rw [List.eq_of_mem_replicate ht] at hk ⊢
      have hk' : 1 ≤ k := hk
      simp [pos, show k ≠ 0 by omega])
  rw [List.length_replicate] at this
  have e : ∀ p : List ℕ, prodAt ((List.replicate d ((fun _ => 1, 1, 1) : (ℕ → ℚ) × ℕ × ℚ)).map fun t => t.1) p = 1 := by
    intro p
    rw [prodAt]
    refine List.prod_eq_one fun x hx => ?_
    rw [List.map_replicate] at hx
    rw [List.mem_iff_getElem] at hx
    obtain ⟨i, hi, rfl⟩ := hx
    simp
  simp only [e, mul_one, Rat.cast_id] at this
  rw [this]
  simp

/-- **C43**: the coefficient of a combination is `(-1)^(q-|p|) C(d-1, q-|p|)` -/
theorem C43_coef {q d n : ℕ} (hd : 1 ≤ d) (h1 : q + 1 ≤ n + d) (h2 : n ≤ q) : coef q d n = (-1) ^ (q - n) * ((d - 1).choose (q - n) : ℚ) := by
  have := coef_eq (K := ℚ) hd h1 h2
  simpa using this

/-- **C43**: the combination is Smolyak's: for every choice of one-dimensional rules `us`, the combination of their tensor
products is the sum of the tensor products of the differences of consecutive rules over all levels with sum `≤ q` -/
theorem C43_smolyak {us : List (ℕ → ℝ)} (hu : us ≠ []) {q : ℕ} (hq : us.length ≤ q) {Q : List (List ℕ)} (h : genQ q us.length = .ok Q) :
    (Q.map fun p => ((coef q us.length p.sum : ℚ) : ℝ) * prodAt us p).sum =
      ∑ n ∈ Finset.range q, ((genPartitions us.length (n + 1)).map (prodAt (us.map delta))).sum := comb_smolyak hu hq h

/-- numbers of nodes of consecutive levels -/
theorem C43_levels : lvl 1 = 11 ∧ ∀ e, 1 ≤ e → lvl (e + 1) = 2 * lvl e - 1 :=
  ⟨rfl, fun e he => by rw [lvl_succ he, mul_comm]⟩

variable {f : List ℝ → ℝ} {stop : List (ℝ × ℝ) → Bool} {d maxq : ℕ} {box : List (ℝ × ℝ)} {s : St}

/-- **C43**: the interpolator is built without errors, for every function, every dimension, every bound on the depth and every
stopping rule; its depth stays within the bound -/
theorem C43_build (f : List ℝ → ℝ) (stop : List (ℝ × ℝ) → Bool) (hd : 1 ≤ d) (hb : box.length = d) (maxq : ℕ) :
    ∃ s, build f stop d box maxq = .ok s ∧ s.d = d ∧ s.box = box ∧ d ≤ s.q ∧ s.q ≤ max d (maxq + 1) := by
  obtain ⟨s, h1, h2, h3, h4, h5⟩ := build_spec f stop hd hb maxq
  exact ⟨s, h1, h3, h4, h3 ▸ h2.dq, h5⟩

/-- **C43**: after any number of refinements no node is stored twice and every stored value is the value of `f` at its node -/
theorem C43_values (hd : 1 ≤ d) (hb : box.length = d) (h : build f stop d box maxq = .ok s) :
    s.nodes.Nodup ∧ s.ys = s.nodes.map fun n => f (coords box (lvl (s.q - d + 1)) n) := by
  obtain ⟨h1, rfl, rfl⟩ := inv_of_build hd hb h
  exact ⟨h1.grid.nodup, h1.ys⟩

/-- **C43**: the stored subgrids are those of all admissible combinations, with their coefficients, and the values attached to
a subgrid are the values of `f` on its tensor grid, in the order of the grid -/
theorem C43_subgrids (hd : 1 ≤ d) (hb : box.length = d) (h : build f stop d box maxq = .ok s) :
    genQ s.q d = .ok (s.subs.map Sub.p) ∧ ∀ g ∈ s.subs, g.c = coef s.q d g.p.sum ∧
      gather s.ys g.idx = .ok ((product (g.p.map fun e => List.range (lvl e))).map fun i => f (coordsE box g.p i)) := by
  obtain ⟨h1, rfl, rfl⟩ := inv_of_build hd hb h
  exact ⟨h1.grid.keys, fun g hg => ⟨(h1.grid.sub g hg).1, h1.gather hg⟩⟩

/-- **C43**: the refined grid contains the coarser one: a node of depth `q` with its indices doubled is a node of depth `q+1`
with the same coordinates -/
theorem C43_nested {q : ℕ} (hd : 1 ≤ d) (hq : d ≤ q) {exps : List ℕ} (he : exps[q - d + 1]? = some (lvl (q - d + 1)))
    (he' : exps[q + 1 - d + 1]? = some (lvl (q + 1 - d + 1))) :
    ∃ nodes subs nodes' subs', getNodes d exps q = .ok (nodes, subs) ∧ getNodes d exps (q + 1) = .ok (nodes', subs') ∧
      ∀ n ∈ nodes, n.map (2 * ·) ∈ nodes' ∧ coords box (lvl (q + 1 - d + 1)) (n.map (2 * ·)) = coords box (lvl (q - d + 1)) n := by
  obtain ⟨nodes, subs, h1, h2⟩ := getNodes_spec hq he
  obtain ⟨nodes', subs', h1', h2'⟩ := getNodes_spec (q := q + 1) (by omega) he'
  refine ⟨nodes, subs, nodes', subs', h1, h1', fun n hn => ⟨h2.double h2' hd hq hn, ?_⟩⟩
  rw [show q + 1 - d + 1 = q - d + 1 + 1 by omega]
  exact coords_double (by omega) (h2.lt hd hq hn)

/-! ### C44 -/

/-- **C44**: the compiled routine sums value times product of axis factors over all grid points, the values being given in the
order of the grid; for every dimension and all sizes of the axes, if there are at least as many values as axes -/
theorem C44_dense {K : Type*} [Field K] {ws : List (List K)} (hne : ws ≠ []) (hM : ws.length ≤ (ws.map List.length).prod) (F : List ℕ → K) :
    dense ws ((product ((ws.map List.length).map List.range)).map F) =
      .ok ((product ((ws.map List.length).map List.range)).map fun i => F i * (List.zipWith (fun w k => w.getD k 0) ws i).prod).sum := by
  rw [product_range, List.map_map, List.map_map, dense, if_neg hne, if_neg (by simpa using hM)]
  have h0 : (ws.map fun _ => 0) = digits (ws.map List.length) (0 % (ws.map List.length).prod) := by
    rw [Nat.zero_mod, digits_zero, List.map_map]; rfl
  rw [h0, denseLoop_eq ws _ 0 0 (by simp), zero_add, List.length_map, List.length_range, ← List.range_eq_range', List.zipWith_map_left, List.zipWith_self]
  rfl

/-- **C44**: there are enough values if every axis has at least two nodes -/
theorem C44_sizes {K : Type*} {ws : List (List K)} (h : ∀ w ∈ ws, 2 ≤ w.length) : ws.length ≤ (ws.map List.length).prod := by
  have : 2 ^ ws.length ≤ (ws.map List.length).prod := by
    have := List.pow_card_le_prod (ws.map List.length) 2 (by simpa using h)
    simpa using this
  exact Nat.lt_two_pow_self.le.trans this

example : dense [[2, 3], [5, 7, 11]] [1, 10, 100, 1000, 10000, 100000] = .ok (3527350 : ℚ) := by decide +kernel

/-- **C44**: the routine in Python, which contracts one axis after the other, gives the same sum divided by the product of the
sums of the axis factors, for all sizes -/
theorem C44_contract {ws : List (List ℝ)} (hw : ∀ w ∈ ws, 1 ≤ w.length) (F : List ℕ → ℝ) :
    fullGrid ws ((product ((ws.map List.length).map List.range)).map F) =
      .ok (((product ((ws.map List.length).map List.range)).map fun i => F i * (List.zipWith (fun w k => w.getD k 0) ws i).prod).sum /
        (ws.map List.sum).prod) := fullGrid_eq hw F

/-- **C44** fails for the compiled routine if there are more axes than values: on a grid of one point in two dimensions the
array of pointers, allocated with one entry per value instead of one per axis, is written outside of its bounds. -/
theorem C44_violated_single_point : dense [[1], [1]] [1] = (.error .index : Except PyErr ℚ) := by decide

/-! ### C61 -/

/-- a sum of products of polynomials in one variable each: every polynomial in several variables is one -/
noncomputable def polyFun (terms : List (List ℝ[X])) (Y : List ℝ) : ℝ :=
  (terms.map fun ps => (List.zipWith (fun (P : ℝ[X]) y => P.eval y) ps Y).prod).sum

/-- **C61**: polynomials are reproduced at every point: a term is reproduced if the degrees of its factors fit levels
(degree `< lvl k`) whose sum is at most the depth reached.  Every dimension, box, stopping rule and bound on the depth. -/
theorem C61_polynomials {terms : List (List ℝ[X])} (hd : 1 ≤ d) (hb : box.length = d) (hbox : ∀ ab ∈ box, ab.1 < ab.2)
    (h : build (polyFun terms) stop d box maxq = .ok s)
    (ht : ∀ ps ∈ terms, ∃ ks : List ℕ, (∀ k ∈ ks, 1 ≤ k) ∧ ks.sum ≤ s.q ∧ ks.length = d ∧ List.Forall₂ (fun (P : ℝ[X]) k => P.degree < lvl k) ps ks)
    {X : List ℝ} (hX : X.length = d) : interpAt s X = .ok (polyFun terms X) := by
  obtain ⟨hI, rfl, rfl⟩ := inv_of_build hd hb h
  refine interp_repr hI (terms := terms.map fun ps => (1, ps.map fun P t => P.eval t)) ?_ hX ?_
  · funext Y
    rw [polyFun, List.map_map]
    congr 1
    refine List.map_congr_left fun ps _ => ?_
    show _ = (1 : ℝ) * valAt (ps.map fun P t => P.eval t) Y
    rw [one_mul, valAt, List.zipWith_map_left]
  · intro t ht'
    obtain ⟨ps, hps, rfl⟩ := List.mem_map.1 ht'
    obtain ⟨ks, h1, h2, h3, h4⟩ := ht ps hps
    refine ⟨by rw [List.length_map, h4.length_eq, h3], ks, h3, h2, fun u hu => ?_⟩
    have hu1 := List.of_mem_zip hu
    have hab := hbox _ (List.of_mem_zip hu1.1).1
    obtain ⟨i, hi, he⟩ := List.getElem_of_mem hu1.2
    rw [List.getElem_zip, List.getElem_map] at he
    have hdeg := (List.forall₂_iff_get.1 h4).2 i (by simp at hi; omega) (by simp at hi; omega)
    refine ⟨h1 _ (List.of_mem_zip hu1.2).2, fun e hke => ?_⟩
    rw [← he]
    rw [← he] at hke
    refine axU_poly hab _ (lt_of_lt_of_le hdeg ?_)
    exact_mod_cast lvl_mono hke

/-- **C61**: in particular polynomials of degree at most 10 in each variable are reproduced at every depth -/
theorem C61_degree_ten {terms : List (List ℝ[X])} (hd : 1 ≤ d) (hb : box.length = d) (hbox : ∀ ab ∈ box, ab.1 < ab.2)
    (ht : ∀ ps ∈ terms, ps.length = d ∧ ∀ P ∈ ps, P.natDegree ≤ 10) (stop : List (ℝ × ℝ) → Bool) (maxq : ℕ) :
    ∃ s, build (polyFun terms) stop d box maxq = .ok s ∧ ∀ X : List ℝ, X.length = d → interpAt s X = .ok (polyFun terms X) := by
  obtain ⟨s, h, h1, h2, h3, -⟩ := C43_build (polyFun terms) stop hd hb maxq
  refine ⟨s, h, fun X hX => C61_polynomials hd hb hbox h (fun ps hps => ?_) hX⟩
  obtain ⟨hl, hp⟩ := ht ps hps
  refine ⟨List.replicate d 1, fun k hk => by rw [List.eq_of_mem_replicate hk], by simpa using h3, by simp, ?_⟩
  refine List.forall₂_iff_get.2 ⟨by simp [hl], fun i h1 h2 => ?_⟩
  have hk : (List.replicate d 1).get ⟨i, h2⟩ = 1 := by simp
  rw [hk]
  refine lt_of_le_of_lt degree_le_natDegree ?_
  have := hp (ps.get ⟨i, h1⟩) (List.get_mem _ _)
  have h11 : lvl 1 = 11 := rfl
  rw [h11]
  exact_mod_cast Nat.lt_succ_of_le this

open Classical in
/-- **C61**: at every node the interpolator gives the value of the function there, for every function -/
theorem C61_nodes (hd : 1 ≤ d) (hb : box.length = d) (hbox : ∀ ab ∈ box, ab.1 < ab.2) (h : build f stop d box maxq = .ok s) {n : List ℕ}
    (hn : n ∈ s.nodes) : interpAt s (coords box (lvl (s.q - d + 1)) n) = .ok (f (coords box (lvl (s.q - d + 1)) n)) := by
  obtain ⟨hI, rfl, rfl⟩ := inv_of_build hd hb h
  obtain ⟨m, hm⟩ : ∃ m, m = s.q - s.d + 1 := ⟨_, rfl⟩
  rw [← hm]
  obtain ⟨G, hG⟩ : ∃ G, G = product (s.box.map fun ab => cheb (lvl m) ab.1 ab.2) := ⟨_, rfl⟩
  have hGlen : ∀ Y ∈ G, Y.length = s.d := by
    intro Y hY
    rw [hG, mem_product] at hY
    rw [hY.length_eq, List.length_map, hI.box]
  have hGn : G.Nodup := by
    rw [hG]
    refine nodup_product fun l hl => ?_
    obtain ⟨ab, hab, rfl⟩ := List.mem_map.1 hl
    exact nodup_cheb (two_le_lvl m) (hbox ab hab)
  have hmemG : ∀ n ∈ s.nodes, coords s.box (lvl m) n ∈ G := by
    intro n hn
    rw [hG]
    exact coords_mem (by rw [hI.box, hI.grid.length hd hI.dq hn]) (by rw [hm]; exact hI.grid.lt hd hI.dq hn)
  have hval : ∀ X ∈ G, ((G.map fun Y => (f Y, Y.map fun y t => if t = y then (1 : ℝ) else 0)).map fun t => t.1 * valAt t.2 X).sum = f X := by
    intro X hX
    rw [List.map_map]
    refine Eq.trans ?_ (sum_ite_nodup f X hGn hX)
    congr 1
    refine List.map_congr_left fun Y hY => ?_
    show f Y * valAt (Y.map fun y t => if t = y then (1 : ℝ) else 0) X = _
    refine congrArg (f Y * ·) ?_
    convert valAt_indicator (show Y.length = X.length by rw [hGlen Y hY, hGlen X hX]) using 2
  have hI' : Inv (fun X => ((G.map fun Y => (f Y, Y.map fun y t => if t = y then (1 : ℝ) else 0)).map fun t => t.1 * valAt t.2 X).sum) s :=
    hI.congr fun n hn => by
      rw [← hm, hval _ (hmemG n hn)]
  obtain ⟨p, ⟨h1, h2, h3, h4⟩, hp⟩ := (hI.grid.mem_iff hd hI.dq).1 hn
  rw [← hm] at hp
  have hXl : (coords s.box (lvl m) n).length = s.d := hGlen _ (hmemG n hn)
  have := interp_repr hI' rfl (X := coords s.box (lvl m) n) hXl (by
    intro t ht
    obtain ⟨Y, hY, rfl⟩ := List.mem_map.1 ht
    refine ⟨by rw [List.length_map, hGlen Y hY], p, h1, h4, fun u hu => ?_⟩
    have hu1 := List.of_mem_zip hu
    have hlev := coord_level (m := m) (box := s.box) (p := p) (n := n) (by rw [hI.box, h1])
      (by rw [hm]; exact level_le h1 h2 h4) hp (u.1, u.2.2) (by
        obtain ⟨i, hi, he⟩ := List.getElem_of_mem hu
        rw [List.getElem_zip, List.getElem_zip (i := i) (l := List.map _ Y)] at he
        rw [← he]
        simp only [List.length_zip, List.length_map] at hi
        refine List.mem_iff_getElem.2 ⟨i, ?_, ?_⟩
        · simp only [List.length_zip]; omega
        · rw [List.getElem_zip])
    refine ⟨h2 _ (List.of_mem_zip hu1.2).2, fun e he => axU_node _ ?_⟩
    exact mem_cheb_lvl (h2 _ (List.of_mem_zip hu1.2).2) he hlev)
  rw [this, hval _ (hmemG n hn)]

/-- the interpolator of any function on a square is built and agrees with it at its nodes, and it has nodes -/
example (f : List ℝ → ℝ) (stop : List (ℝ × ℝ) → Bool) (maxq : ℕ) : ∃ s, build f stop 2 [(0, 1), (-1, 1)] maxq = .ok s ∧ s.nodes ≠ [] ∧
    ∀ n ∈ s.nodes, interpAt s (coords [(0, 1), (-1, 1)] (lvl (s.q - 2 + 1)) n) = .ok (f (coords [(0, 1), (-1, 1)] (lvl (s.q - 2 + 1)) n)) := by
  obtain ⟨s, h1, h2, -⟩ := C43_build f stop (d := 2) (box := [(0, 1), (-1, 1)]) (by norm_num) rfl maxq
  refine ⟨s, h1, ?_, fun n hn => C61_nodes (d := 2) (by norm_num) rfl ?_ h1 hn⟩
  · have hI := (inv_of_build (d := 2) (by norm_num) rfl h1).1
    obtain ⟨n, hn⟩ := hI.grid.odd hI.d1 hI.dq
    exact List.ne_nil_of_mem hn
  · intro ab hab
    simp only [List.mem_cons, List.not_mem_nil, or_false] at hab
    rcases hab with rfl | rfl <;> norm_num

/-- a polynomial in three variables, interpolated on `[0,1] × [-1,1] × [2,5]` -/
example (stop : List (ℝ × ℝ) → Bool) (maxq : ℕ) : ∃ s,
    build (polyFun [[X ^ 2, X + 1, C 3], [C 1, X ^ 10, X ^ 7]]) stop 3 [(0, 1), (-1, 1), (2, 5)] maxq = .ok s ∧
    ∀ Y : List ℝ, Y.length = 3 → interpAt s Y = .ok (polyFun [[X ^ 2, X + 1, C 3], [C 1, X ^ 10, X ^ 7]] Y) :=
  C61_degree_ten (d := 3) (box := [(0, 1), (-1, 1), (2, 5)]) (by norm_num) rfl (by
    intro ab hab
    simp only [List.mem_cons, List.not_mem_nil, or_false] at hab
    rcases hab with rfl | rfl | rfl <;> norm_num) (by
    intro ps hps
    simp only [List.mem_cons, List.not_mem_nil, or_false] at hps
    rcases hps with rfl | rfl
    · refine ⟨rfl, fun P hP => ?_⟩
      simp only [List.mem_cons, List.not_mem_nil, or_false] at hP
      rcases hP with rfl | rfl | rfl
      · rw [natDegree_X_pow]; norm_num
      · exact (natDegree_X_add_C 1).le.trans (by norm_num)
      · rw [natDegree_C]; norm_num
    · refine ⟨rfl, fun P hP => ?_⟩
      simp only [List.mem_cons, List.not_mem_nil, or_false] at hP
      rcases hP with rfl | rfl | rfl
      · rw [natDegree_C]; norm_num
      · rw [natDegree_X_pow]
      · rw [natDegree_X_pow]; norm_num) stop maxq

end Sparse
end Pacal
