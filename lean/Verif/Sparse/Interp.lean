import Verif.Sparse.Adapt

/-! Lemmas for `Sparse/Props.lean`: the values of the interpolator. -/

namespace Pacal
namespace Sparse
open Nodes

variable {f : List ℝ → ℝ} {stop : List (ℝ × ℝ) → Bool} {d maxq : ℕ} {box : List (ℝ × ℝ)} {s : St}

theorem inv_of_build (hd : 1 ≤ d) (hb : box.length = d) (h : build f stop d box maxq = .ok s) : Inv f s ∧ s.d = d ∧ s.box = box := by
  obtain ⟨s', h1, h2, h3, h4, -⟩ := build_spec f stop hd hb maxq
  rw [h1] at h
  cases h
  exact ⟨h2, h3, h4⟩

/-- a function that is a sum of products of functions reproduced by the axes -/
theorem interp_repr (h : Inv f s) {terms : List (ℝ × List (ℝ → ℝ))} (hf : f = fun Y => (terms.map fun t => t.1 * valAt t.2 Y).sum)
    {X : List ℝ} (hX : X.length = s.d) (ht : ∀ t ∈ terms, t.2.length = s.d ∧ ∃ ks : List ℕ, ks.length = s.d ∧ ks.sum ≤ s.q ∧
      ∀ u ∈ (s.box.zip X).zip (t.2.zip ks), Repr u) : interpAt s X = .ok (f X) := by
  rw [h.interpAt hX]
  congr 1
  subst hf
  have e1 : ∀ p : List ℕ, ((coef s.q s.d p.sum : ℚ) : ℝ) * subVal (fun Y => (terms.map fun t => t.1 * valAt t.2 Y).sum) s.box X p =
      (terms.map fun t => t.1 * (((coef s.q s.d p.sum : ℚ) : ℝ) * subVal (valAt t.2) s.box X p)).sum := by
    intro p
    rw [subVal_sum, ← List.sum_map_mul_left]
    congr 1
    refine List.map_congr_left fun t _ => ?_
    ring
  rw [funext e1]
  have e2 : ∀ (ps : List (List ℕ)) (G : ℝ × List (ℝ → ℝ) → List ℕ → ℝ), (ps.map fun p => (terms.map fun t => t.1 * G t p).sum).sum =
      (terms.map fun t => t.1 * (ps.map (G t)).sum).sum := by
    intro ps G
    induction ps with
    | nil => simp
    | cons p ps ih => simp only [List.map_cons, List.sum_cons, ih, mul_add, List.sum_map_add]
  rw [e2 _ fun t p => ((coef s.q s.d p.sum : ℚ) : ℝ) * subVal (valAt t.2) s.box X p]
  congr 1
  refine List.map_congr_left fun t htm => ?_
  obtain ⟨hl, ks, hk1, hk2, hk3⟩ := ht t htm
  have hlen : ((s.box.zip X).zip (t.2.zip ks)).length = s.d := by simp [h.box, hX, hl, hk1]
  have m1 : ((s.box.zip X).zip (t.2.zip ks)).map (fun u => u.1.1) = s.box := by
    have : ((s.box.zip X).zip (t.2.zip ks)).map (fun u => u.1.1) = (((s.box.zip X).zip (t.2.zip ks)).map Prod.fst).map Prod.fst := by
      rw [List.map_map]; rfl
    rw [this, List.map_fst_zip (by simp [h.box, hX, hl, hk1]), List.map_fst_zip (by simp [h.box, hX])]
  have m2 : ((s.box.zip X).zip (t.2.zip ks)).map (fun u => u.1.2) = X := by
    have : ((s.box.zip X).zip (t.2.zip ks)).map (fun u => u.1.2) = (((s.box.zip X).zip (t.2.zip ks)).map Prod.fst).map Prod.snd := by
      rw [List.map_map]; rfl
    rw [this, List.map_fst_zip (by simp [h.box, hX, hl, hk1]), List.map_snd_zip (by simp [h.box, hX])]
  have m3 : ((s.box.zip X).zip (t.2.zip ks)).map (fun u => u.2.1) = t.2 := by
    have : ((s.box.zip X).zip (t.2.zip ks)).map (fun u => u.2.1) = (((s.box.zip X).zip (t.2.zip ks)).map Prod.snd).map Prod.fst := by
      rw [List.map_map]; rfl
    rw [this, List.map_snd_zip (by simp [h.box, hX, hl, hk1]), List.map_fst_zip (by simp [hl, hk1])]
  have m4 : ((s.box.zip X).zip (t.2.zip ks)).map (fun u => u.2.2) = ks := by
    have : ((s.box.zip X).zip (t.2.zip ks)).map (fun u => u.2.2) = (((s.box.zip X).zip (t.2.zip ks)).map Prod.snd).map Prod.snd := by
      rw [List.map_map]; rfl
    rw [this, List.map_snd_zip (by simp [h.box, hX, hl, hk1]), List.map_snd_zip (by simp [hl, hk1])]
  have := comb_prod (q := s.q) (ts := (s.box.zip X).zip (t.2.zip ks)) (Q := s.subs.map Sub.p)
    (by intro hc; rw [hc] at hlen; have := h.d1; simp at hlen; omega) (by rw [hlen]; exact h.dq) (by rw [hlen]; exact h.grid.keys)
    (by rw [m4]; exact hk2) hk3
  rw [m1, m2, m3, hlen] at this
  rw [this]

/-- functions with equal values at the nodes have the same interpolator -/
theorem Inv.congr {f f' : List ℝ → ℝ} {s : St} (h : Inv f s)
    (hf : ∀ n ∈ s.nodes, f (coords s.box (lvl (s.q - s.d + 1)) n) = f' (coords s.box (lvl (s.q - s.d + 1)) n)) : Inv f' s where
  d1 := h.d1
  dq := h.dq
  box := h.box
  exps := h.exps
  grid := h.grid
  ys := by rw [h.ys]; exact List.map_congr_left hf

open Classical in
/-- the indicator of a point as a product -/
theorem valAt_indicator : ∀ {Y X : List ℝ}, Y.length = X.length →
    valAt (Y.map fun y t => if t = y then 1 else 0) X = if X = Y then 1 else 0
  | [], [], _ => by simp [valAt]
  | y :: Y, x :: X, h => by
    have ih := valAt_indicator (Y := Y) (X := X) (by simpa using h)
    rw [valAt, List.map_cons, List.zipWith_cons_cons, List.prod_cons, ← valAt, ih]
    by_cases h1 : x = y <;> by_cases h2 : X = Y <;> simp [h1, h2]

theorem nodup_product {α : Type*} : ∀ {ls : List (List α)}, (∀ l ∈ ls, l.Nodup) → (product ls).Nodup
  | [], _ => by simp [product]
  | l :: ls, h => by
    rw [product, List.nodup_flatMap]
    refine ⟨fun a _ => (nodup_product fun l' hl' => h l' (by simp [hl'])).map fun x y hxy => by simpa using hxy, ?_⟩
    refine (h l (by simp)).imp fun hab => ?_
    rw [Function.onFun, List.disjoint_left]
    intro n h1 h2
    obtain ⟨n1, -, rfl⟩ := List.mem_map.1 h1
    obtain ⟨n2, -, h3⟩ := List.mem_map.1 h2
    simp only [List.cons.injEq] at h3
    exact hab h3.1.symm

open Classical in
theorem sum_ite_nodup {α : Type*} (g : α → ℝ) (x : α) : ∀ {l : List α}, l.Nodup → x ∈ l → (l.map fun y => g y * if x = y then 1 else 0).sum = g x
  | y :: l, hn, hx => by
    rw [List.nodup_cons] at hn
    rw [List.map_cons, List.sum_cons]
    by_cases h : x = y
    · subst h
      have : (l.map fun y => g y * if x = y then (1 : ℝ) else 0) = l.map fun _ => 0 :=
        List.map_congr_left fun z hz => by rw [if_neg (fun e : x = z => hn.1 (e ▸ hz)), mul_zero]
      rw [this]
      simp
    · rw [if_neg h, mul_zero, zero_add]
      exact sum_ite_nodup g x hn.2 (by simpa [h] using hx)

theorem nodup_cheb {n : ℕ} (hn : 2 ≤ n) {a b : ℝ} (hab : a < b) : (cheb n a b).Nodup := by
  obtain ⟨M, rfl⟩ : ∃ M, n = M + 2 := ⟨n - 2, by omega⟩
  rw [cheb_eq hn]
  refine List.Nodup.map_on (fun i hi j hj h => ?_) List.nodup_range
  rw [List.mem_range] at hi hj
  by_contra hne
  rcases lt_or_gt_of_ne hne with hlt | hlt
  · exact absurd h (nodeAt_lt hab hlt hj).ne
  · exact absurd h (nodeAt_lt hab hlt hi).ne'

theorem getD_mem_cheb {n i : ℕ} (hn : 2 ≤ n) (hi : i < n) (a b : ℝ) : (cheb n a b).getD i 0 ∈ cheb n a b := by
  rw [List.getD_eq_getElem _ _ (by rw [length_cheb hn]; exact hi)]
  exact List.getElem_mem _

theorem coords_mem {m : ℕ} : ∀ {box : List (ℝ × ℝ)} {n : List ℕ}, box.length = n.length → (∀ i ∈ n, i < lvl m) →
    coords box (lvl m) n ∈ product (box.map fun ab => cheb (lvl m) ab.1 ab.2)
  | [], [], _, _ => by simp [coords, product]
  | ab :: box, i :: n, h, hi => by
    have ih := coords_mem (m := m) (box := box) (n := n) (by simpa using h) fun j hj => hi j (by simp [hj])
    rw [List.map_cons, mem_product]
    exact .cons (getD_mem_cheb (two_le_lvl m) (hi i (by simp)) _ _) (mem_product.1 ih)

theorem mem_cheb_lvl {e m : ℕ} (h1 : 1 ≤ e) (h2 : e ≤ m) {a b x : ℝ} (hx : x ∈ cheb (lvl e) a b) : x ∈ cheb (lvl m) a b := by
  obtain ⟨i, hi, rfl⟩ := List.getElem_of_mem hx
  rw [length_cheb (two_le_lvl e)] at hi
  have := cheb_lvl h1 h2 a b hi
  rw [List.getD_eq_getElem (cheb (lvl e) a b) 0 (by rw [length_cheb (two_le_lvl e)]; exact hi)] at this
  rw [← this]
  refine getD_mem_cheb (two_le_lvl m) ?_ a b
  have hmem : i * 2 ^ (m - e) ∈ steps (lvl m) (2 ^ (m - e)) := by rw [mem_steps_lvl h1 h2]; exact ⟨i, hi, rfl⟩
  rw [steps, List.mem_map] at hmem
  obtain ⟨j, hj, hj'⟩ := hmem
  rw [List.mem_range] at hj
  have hs : 0 < 2 ^ (m - e) := by positivity
  have := (Nat.lt_div_iff_mul_lt hs).1 hj
  omega

/-- a coordinate of a node of the subgrid `p` is a node of its level -/
theorem coord_level {m : ℕ} : ∀ {box : List (ℝ × ℝ)} {p n : List ℕ}, box.length = p.length → (∀ e ∈ p, 1 ≤ e ∧ e ≤ m) → n ∈ subNodes m (lvl m) p →
    ∀ u ∈ (box.zip (coords box (lvl m) n)).zip p, u.1.2 ∈ cheb (lvl u.2) u.1.1.1 u.1.1.2
  | [], [], n, _, _, _ => by simp
  | ab :: box, e :: p, n, h, he, hn => by
    rw [subNodes, List.map_cons, mem_product] at hn
    cases hn with
    | cons ha hn =>
      intro u hu
      rw [coords, List.zipWith_cons_cons, List.zip_cons_cons, List.zip_cons_cons, ← coords] at hu
      rcases List.mem_cons.1 hu with rfl | hu
      · obtain ⟨h1, h2⟩ := he e (by simp)
        rw [mem_steps_lvl h1 h2] at ha
        obtain ⟨i, hi, rfl⟩ := ha
        show (cheb (lvl m) ab.1 ab.2).getD (i * 2 ^ (m - e)) 0 ∈ _
        rw [cheb_lvl h1 h2 _ _ hi]
        exact getD_mem_cheb (two_le_lvl e) hi _ _
      · exact coord_level (by simpa using h) (fun e he' => he e (by simp [he'])) (mem_product.2 hn) u hu

end Sparse
end Pacal
