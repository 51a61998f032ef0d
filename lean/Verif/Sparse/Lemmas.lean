import Verif.Sparse.Smolyak
import Verif.Sparse.Grid
import Verif.Nodes.PropsBary

/-! Lemmas for `Sparse/Props.lean`: the table of nodes, nested grids, the state of the interpolator and its value. -/

namespace Pacal
namespace Sparse
open Nodes Polynomial

/-! ### the table of nodes -/

/-- the dictionary gives the position in the list of nodes -/
structure Table.OK (t : Table) : Prop where
  lookup : ∀ n i, t.map.lookup n = some i ↔ t.nodes[i]? = some n
  nodup : t.nodes.Nodup

theorem Table.add_spec {t : Table} (h : t.OK) (n : List ℕ) : (t.add n).1.OK ∧ t.nodes <+: (t.add n).1.nodes ∧
    (t.add n).1.nodes[(t.add n).2]? = some n ∧ ∀ m, m ∈ (t.add n).1.nodes ↔ m ∈ t.nodes ∨ m = n := by
  unfold Table.add
  cases hl : t.map.lookup n with
  | some i =>
    have hi := (h.lookup n i).1 hl
    have hm := List.mem_of_getElem? hi
    exact ⟨h, List.prefix_rfl, hi, fun m => ⟨.inl, fun h' => h'.elim id fun e => by rw [e]; exact hm⟩⟩
  | none =>
    have hn : n ∉ t.nodes := by
      intro hm
      obtain ⟨i, hi⟩ := List.getElem?_of_mem hm
      rw [← h.lookup] at hi
      rw [hi] at hl
      cases hl
    refine ⟨⟨fun m i => ?_, ?_⟩, List.prefix_append _ _, by simp, fun m => by simp⟩
    · rw [List.lookup_cons]
      by_cases hmn : m = n
      · subst hmn
        simp only [beq_self_eq_true]
        constructor
        · intro e; cases e; simp
        · intro e
          rw [List.getElem?_append] at e
          split_ifs at e with hlt
          · exact absurd (List.mem_of_getElem? e) hn
          · rcases hi : i - t.nodes.length with _ | k
            · rw [not_lt] at hlt; congr 1; omega
            · rw [hi] at e; simp at e
      · have : (m == n) = false := by simpa using hmn
        rw [this]
        dsimp only
        rw [h.lookup, List.getElem?_append]
        split_ifs with hlt
        · rfl
        · rw [List.getElem?_eq_none (not_lt.1 hlt)]
          rcases hi : i - t.nodes.length with _ | k
          · simp [Ne.symm hmn]
          · simp
    · exact List.nodup_append.2 ⟨h.nodup, by simp, by simpa using fun a ha (e : a = n) => hn (e ▸ ha)⟩

theorem prefix_getElem? {l l' : List (List ℕ)} (h : l <+: l') {i : ℕ} {n : List ℕ} (hi : l[i]? = some n) : l'[i]? = some n := by
  obtain ⟨k, rfl⟩ := h
  rw [List.getElem?_append_left (by
    by_contra hc
    rw [List.getElem?_eq_none (not_lt.1 hc)] at hi
    cases hi), hi]

theorem Table.addAll_spec : ∀ {t : Table} (_ : t.OK) (ns : List (List ℕ)), (t.addAll ns).1.OK ∧ t.nodes <+: (t.addAll ns).1.nodes ∧
    (t.addAll ns).2.map ((t.addAll ns).1.nodes[·]?) = ns.map some ∧ ∀ m, m ∈ (t.addAll ns).1.nodes ↔ m ∈ t.nodes ∨ m ∈ ns
  | t, h, [] => ⟨h, List.prefix_rfl, rfl, by simp [Table.addAll]⟩
  | t, h, n :: ns => by
    obtain ⟨a1, a2, a3, a4⟩ := Table.add_spec h n
    obtain ⟨b1, b2, b3, b4⟩ := Table.addAll_spec a1 ns
    refine ⟨b1, a2.trans b2, ?_, fun m => ?_⟩
    · show (((t.add n).1.addAll ns).1.nodes[(t.add n).2]?) :: ((t.add n).1.addAll ns).2.map (((t.add n).1.addAll ns).1.nodes[·]?) = _
      rw [prefix_getElem? b2 a3, b3, List.map_cons]
    · refine (b4 m).trans ?_
      rw [a4, List.mem_cons, or_assoc]

/-- the nodes of a subgrid -/
def subNodes (m maxd : ℕ) (p : List ℕ) : List (List ℕ) := product (p.map fun e => steps maxd (2 ^ (m - e)))

/-- an entry of the map of subgrids refers to the right nodes -/
def Sub.OK (q d maxd : ℕ) (nodes : List (List ℕ)) (g : Sub) : Prop :=
  g.c = coef q d g.p.sum ∧ g.idx.map (nodes[·]?) = (subNodes (q - d + 1) maxd g.p).map some

theorem Sub.OK.mono {q d maxd : ℕ} {l l' : List (List ℕ)} {g : Sub} (h : g.OK q d maxd l) (hp : l <+: l') : g.OK q d maxd l' := by
  refine ⟨h.1, ?_⟩
  rw [← h.2]
  refine List.map_congr_left fun i hi => ?_
  have : l[i]? ∈ (subNodes (q - d + 1) maxd g.p).map some := by
    rw [← h.2]; exact List.mem_map.2 ⟨i, hi, rfl⟩
  obtain ⟨n, -, hn⟩ := List.mem_map.1 this
  rw [← hn, prefix_getElem? hp hn.symm]

theorem subgrids_spec {q d maxd : ℕ} : ∀ {t : Table} (_ : t.OK) (ps : List (List ℕ)),
    (subgrids q d maxd t ps).1.OK ∧ t.nodes <+: (subgrids q d maxd t ps).1.nodes ∧ (subgrids q d maxd t ps).2.map Sub.p = ps ∧
    (∀ g ∈ (subgrids q d maxd t ps).2, g.OK q d maxd (subgrids q d maxd t ps).1.nodes) ∧
    ∀ m, m ∈ (subgrids q d maxd t ps).1.nodes ↔ m ∈ t.nodes ∨ ∃ p ∈ ps, m ∈ subNodes (q - d + 1) maxd p
  | t, h, [] => ⟨h, List.prefix_rfl, rfl, by simp [subgrids], by simp [subgrids]⟩
  | t, h, p :: ps => by
    obtain ⟨a1, a2, a3, a4⟩ := Table.addAll_spec h (subNodes (q - d + 1) maxd p)
    obtain ⟨b1, b2, b3, b4, b5⟩ := subgrids_spec (q := q) (d := d) (maxd := maxd) a1 ps
    refine ⟨b1, a2.trans b2, ?_, ?_, fun m => ?_⟩
    · exact congrArg (p :: ·) b3
    · intro g hg
      rcases List.mem_cons.1 hg with rfl | hg
      · exact Sub.OK.mono ⟨rfl, a3⟩ b2
      · exact b4 g hg
    · refine (b5 m).trans ?_
      rw [a4]
      simp only [List.mem_cons, exists_eq_or_imp]
      tauto

/-! ### levels -/

/-- the number of nodes on an axis at a level -/
def lvl (e : ℕ) : ℕ := 10 * 2 ^ (e - 1) + 1

theorem lvl_succ {e : ℕ} (h : 1 ≤ e) : lvl (e + 1) = lvl e * 2 - 1 := by
  obtain ⟨k, rfl⟩ : ∃ k, e = k + 1 := ⟨e - 1, by omega⟩
  simp only [lvl, Nat.add_sub_cancel, pow_succ]
  omega

theorem lvl_mono {e e' : ℕ} (h : e ≤ e') : lvl e ≤ lvl e' := by
  unfold lvl
  have := Nat.pow_le_pow_right (show 0 < 2 by norm_num) (show e - 1 ≤ e' - 1 by omega)
  omega

theorem two_le_lvl (e : ℕ) : 2 ≤ lvl e := by
  have := Nat.one_le_two_pow (n := e - 1)
  unfold lvl
  omega

theorem steps_lvl {e m : ℕ} (h1 : 1 ≤ e) (h2 : e ≤ m) : steps (lvl m) (2 ^ (m - e)) = (List.range (lvl e)).map (· * 2 ^ (m - e)) := by
  have hs : 0 < 2 ^ (m - e) := by positivity
  have : 10 * 2 ^ (m - 1) = 10 * 2 ^ (e - 1) * 2 ^ (m - e) := by
    rw [mul_assoc, ← pow_add]; congr 2; omega
  rw [steps, lvl, this, show 10 * 2 ^ (e - 1) * 2 ^ (m - e) + 1 + 2 ^ (m - e) - 1 = 2 ^ (m - e) + 10 * 2 ^ (e - 1) * 2 ^ (m - e) by omega,
    Nat.add_mul_div_right _ _ hs, Nat.div_self hs, lvl, Nat.add_comm 1]

/-- the nodes of a level are nodes of all higher levels -/
theorem node_lvl {e m : ℕ} (h1 : 1 ≤ e) (h2 : e ≤ m) (a b : ℝ) (i : ℕ) :
    nodeAt (lvl m) a b (i * 2 ^ (m - e)) = nodeAt (lvl e) a b i := by
  unfold nodeAt
  congr 1
  have : (10 : ℝ) * 2 ^ (m - 1) = 10 * 2 ^ (e - 1) * 2 ^ (m - e) := by
    rw [mul_assoc, ← pow_add]; congr 2; omega
  have hs : (2 : ℝ) ^ (m - e) ≠ 0 := by positivity
  have hs' : (10 : ℝ) * 2 ^ (e - 1) ≠ 0 := by positivity
  simp only [lvl]
  push_cast
  rw [add_sub_cancel_right, add_sub_cancel_right, this]
  field_simp

theorem cheb_lvl {e m : ℕ} (h1 : 1 ≤ e) (h2 : e ≤ m) (a b : ℝ) {i : ℕ} (hi : i < lvl e) :
    (cheb (lvl m) a b).getD (i * 2 ^ (m - e)) 0 = (cheb (lvl e) a b).getD i 0 := by
  have hlt : i * 2 ^ (m - e) < lvl m := by
    have : 10 * 2 ^ (m - 1) = 10 * 2 ^ (e - 1) * 2 ^ (m - e) := by
      rw [mul_assoc, ← pow_add]; congr 2; omega
    unfold lvl at hi ⊢
    have := Nat.mul_le_mul_right (2 ^ (m - e)) (show i ≤ 10 * 2 ^ (e - 1) by omega)
    omega
  rw [cheb_eq (two_le_lvl _), cheb_eq (two_le_lvl _), List.getD_eq_getElem _ _ (by simpa using hlt), List.getD_eq_getElem _ _ (by simpa using hi)]
  simp [node_lvl h1 h2]

/-- the coordinates of the point with the indices `is` of the subgrid `p` -/
noncomputable def coordsE : List (ℝ × ℝ) → List ℕ → List ℕ → List ℝ
  | ab :: box, e :: p, i :: is => (cheb (lvl e) ab.1 ab.2).getD i 0 :: coordsE box p is
  | _, _, _ => []

theorem product_map {α β : Type*} : ∀ (ls : List (List α × (α → β))),
    product (ls.map fun l => l.1.map l.2) = (product (ls.map fun l => l.1)).map fun is => List.zipWith (fun l i => l.2 i) ls is
  | [] => by simp [product]
  | l :: ls => by
    rw [List.map_cons, product, product_map ls, List.map_cons, product, List.map_flatMap, List.flatMap_map]
    refine List.flatMap_congr fun a _ => ?_
    rw [List.map_map, List.map_map]
    rfl

theorem mem_product {α : Type*} : ∀ {ls : List (List α)} {n : List α}, n ∈ product ls ↔ List.Forall₂ (· ∈ ·) n ls
  | [], n => by
    rw [product, List.mem_singleton]
    exact ⟨fun h => h ▸ .nil, fun h => by cases h; rfl⟩
  | l :: ls, n => by
    rw [product, List.mem_flatMap]
    constructor
    · rintro ⟨a, ha, hn⟩
      obtain ⟨n', hn', rfl⟩ := List.mem_map.1 hn
      exact .cons ha (mem_product.1 hn')
    · intro h
      cases h with
      | cons ha hn => exact ⟨_, ha, List.mem_map.2 ⟨_, mem_product.2 hn, rfl⟩⟩

/-- the coordinates of the nodes of a subgrid, in order -/
theorem coords_subNodes {m : ℕ} : ∀ {box : List (ℝ × ℝ)} {p : List ℕ}, box.length = p.length → (∀ e ∈ p, 1 ≤ e ∧ e ≤ m) →
    (subNodes m (lvl m) p).map (coords box (lvl m)) = (product (p.map fun e => List.range (lvl e))).map (coordsE box p)
  | [], [], _, _ => by simp [subNodes, product, coords, coordsE]
  | ab :: box, e :: p, h, he => by
    have ih := coords_subNodes (m := m) (box := box) (p := p) (by simpa using h) fun e he' => he e (by simp [he'])
    obtain ⟨h1, h2⟩ := he e (by simp)
    rw [subNodes, List.map_cons, product, List.map_cons, product, steps_lvl h1 h2, List.map_flatMap, List.map_flatMap, List.flatMap_map]
    refine List.flatMap_congr fun i hi => ?_
    rw [List.map_map, List.map_map]
    have e1 : (coords (ab :: box) (lvl m)) ∘ (fun n => i * 2 ^ (m - e) :: n) =
        (fun l => (cheb (lvl e) ab.1 ab.2).getD i 0 :: l) ∘ coords box (lvl m) := by
      funext n
      show (cheb (lvl m) ab.1 ab.2).getD (i * 2 ^ (m - e)) 0 :: _ = _
      rw [cheb_lvl h1 h2 _ _ (List.mem_range.1 hi)]
      rfl
    have e2 : (coordsE (ab :: box) (e :: p)) ∘ (fun n => i :: n) =
        (fun l => (cheb (lvl e) ab.1 ab.2).getD i 0 :: l) ∘ coordsE box p := rfl
    rw [e1, e2, ← List.map_map, ← List.map_map]
    exact congrArg _ ih

/-! ### the value of the interpolator on one axis -/

/-- the weights of an axis at a level -/
noncomputable def axW (ab : ℝ × ℝ) (x : ℝ) (e : ℕ) : List ℝ := axisWeights (cheb (lvl e) ab.1 ab.2) (chebWeights (lvl e)) x

theorem length_cheb {n : ℕ} (hn : 2 ≤ n) (a b : ℝ) : (cheb n a b).length = n := by rw [cheb_eq hn]; simp

theorem length_chebWeights (n : ℕ) : (chebWeights n).length = n := by simp [chebWeights, alt]

theorem length_axW (ab : ℝ × ℝ) (x : ℝ) (e : ℕ) : (axW ab x e).length = lvl e := by
  unfold axW axisWeights
  split_ifs
  · rw [List.length_map, length_cheb (two_le_lvl e)]
  · rw [List.length_zipWith, length_cheb (two_le_lvl e), length_chebWeights, min_self]

/-- the interpolated value of `g` at level `e` -/
noncomputable def axU (ab : ℝ × ℝ) (x : ℝ) (g : ℝ → ℝ) (e : ℕ) : ℝ :=
  (∑ i ∈ Finset.range (lvl e), g ((cheb (lvl e) ab.1 ab.2).getD i 0) * (axW ab x e).getD i 0) / (axW ab x e).sum

theorem sum_getD (l : List ℝ) : l.sum = ∑ i ∈ Finset.range l.length, l.getD i 0 := by
  conv_lhs => rw [list_eq_range_map l]
  rfl

/-- at a node the value is the value of the function -/
theorem axU_node {ab : ℝ × ℝ} {x : ℝ} (g : ℝ → ℝ) {e : ℕ} (h : x ∈ cheb (lvl e) ab.1 ab.2) : axU ab x g e = g x := by
  have hw : axW ab x e = (cheb (lvl e) ab.1 ab.2).map fun xi => if x - xi = 0 then 1 else 0 := by rw [axW, axisWeights, if_pos h]
  have hl := length_cheb (two_le_lvl e) ab.1 ab.2
  have hg : ∀ i ∈ Finset.range (lvl e), (axW ab x e).getD i 0 = if x - (cheb (lvl e) ab.1 ab.2).getD i 0 = 0 then 1 else 0 := by
    intro i hi
    rw [Finset.mem_range] at hi
    rw [hw, List.getD_eq_getElem _ _ (by simpa [hl] using hi), List.getD_eq_getElem _ _ (by simpa [hl] using hi), List.getElem_map]
  have hs : (axW ab x e).sum = ∑ i ∈ Finset.range (lvl e), (axW ab x e).getD i 0 := by rw [sum_getD, length_axW]
  have hnum : ∑ i ∈ Finset.range (lvl e), g ((cheb (lvl e) ab.1 ab.2).getD i 0) * (axW ab x e).getD i 0 = g x * (axW ab x e).sum := by
    rw [hs, Finset.mul_sum]
    refine Finset.sum_congr rfl fun i hi => ?_
    rw [hg i hi]
    split_ifs with h0
    · rw [sub_eq_zero.1 h0]
    · simp
  have hpos : (axW ab x e).sum ≠ 0 := by
    have : 0 < (axW ab x e).sum := by
      rw [hs]
      obtain ⟨i, hi, hx⟩ := List.getElem_of_mem h
      rw [hl] at hi
      refine Finset.sum_pos' (fun j hj => by rw [hg j hj]; split_ifs <;> norm_num) ⟨i, Finset.mem_range.2 hi, ?_⟩
      rw [hg i (Finset.mem_range.2 hi), List.getD_eq_getElem _ _ (by rw [hl]; exact hi), hx, sub_self, if_pos rfl]
      norm_num
    exact this.ne'
  rw [axU, hnum, mul_div_assoc, div_self hpos, mul_one]

/-- polynomials of low degree are reproduced -/
theorem axU_poly {ab : ℝ × ℝ} (hab : ab.1 < ab.2) (x : ℝ) {e : ℕ} {P : ℝ[X]} (hP : P.degree < lvl e) : axU ab x (fun t => P.eval t) e = P.eval x := by
  by_cases h : x ∈ cheb (lvl e) ab.1 ab.2
  · exact axU_node _ h
  obtain ⟨M, hM⟩ : ∃ M, lvl e = M + 2 := ⟨lvl e - 2, by have := two_le_lvl e; omega⟩
  have hc : cheb (lvl e) ab.1 ab.2 = (List.range (M + 2)).map (nodeAt (M + 2) ab.1 ab.2) := by rw [hM, cheb_eq (by omega)]
  have hx : ∀ i, i < M + 2 → x ≠ nodeAt (M + 2) ab.1 ab.2 i := by
    intro i hi hx
    exact h (by rw [hc]; exact List.mem_map.2 ⟨i, List.mem_range.2 hi, hx.symm⟩)
  have hp := (prop_cheb M).affine (1 / 2 * (ab.1 + ab.2)) (β := -(1 / 2 * (ab.2 - ab.1))) (by intro h; linarith)
  rw [← funext (nodeAt_affine M ab.1 ab.2)] at hp
  obtain ⟨h1, h2⟩ := sums_eq (by omega) (nodeAt (M + 2) ab.1 ab.2) (fun i => P.eval (nodeAt (M + 2) ab.1 ab.2 i)) _
    (injOn_of_lt fun i j hij hj => nodeAt_lt hab hij hj) hp (p := P) (by rw [← hM]; exact hP) (fun _ _ => rfl) hx
  have hw : axW ab x e = (List.range (M + 2)).map fun i => (-(-1) ^ i / dN M i) / (x - nodeAt (M + 2) ab.1 ab.2 i) := by
    rw [axW, axisWeights, if_neg h, hc, hM, chebWeights_eq, List.zipWith_map, List.zipWith_self]
  rw [← h2, axU, hw, hM]
  congr 1
  rw [sum_range_list]
  refine Finset.sum_congr rfl fun i hi => ?_
  rw [Finset.mem_range] at hi
  rw [List.getD_eq_getElem (cheb (M + 2) ab.1 ab.2) 0 (by rw [length_cheb (by omega)]; exact hi), List.getD_eq_getElem _ _ (by simpa using hi)]
  simp only [List.getElem_map, List.getElem_range, cheb_eq (show 2 ≤ M + 2 by omega)]
  ring

end Sparse
end Pacal
