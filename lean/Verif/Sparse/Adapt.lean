import Verif.Sparse.State

/-! Lemmas for `Sparse/Props.lean`: the refinement of the grid. -/

namespace Pacal
namespace Sparse
open Nodes

theorem mem_steps_lvl {e m : ℕ} (h1 : 1 ≤ e) (h2 : e ≤ m) {n : ℕ} : n ∈ steps (lvl m) (2 ^ (m - e)) ↔ ∃ i, i < lvl e ∧ n = i * 2 ^ (m - e) := by
  rw [steps_lvl h1 h2]
  simp [eq_comm]

/-- the nodes of a subgrid, doubled, are nodes of the same subgrid on the next level -/
theorem double_mem {m : ℕ} : ∀ {p n : List ℕ}, (∀ e ∈ p, 1 ≤ e ∧ e ≤ m) → n ∈ subNodes m (lvl m) p → n.map (2 * ·) ∈ subNodes (m + 1) (lvl (m + 1)) p
  | [], n, _, h => by
    rw [subNodes, List.map_nil, product, List.mem_singleton] at h ⊢
    rw [h]; rfl
  | e :: p, n, he, h => by
    rw [subNodes, List.map_cons, mem_product] at h
    cases h with
    | cons ha hn =>
      obtain ⟨h1, h2⟩ := he e (by simp)
      rw [mem_steps_lvl h1 h2] at ha
      obtain ⟨i, hi, rfl⟩ := ha
      rw [subNodes, List.map_cons, List.map_cons, mem_product]
      refine .cons ?_ (mem_product.1 (double_mem (fun e he' => he e (by simp [he'])) (mem_product.2 hn)))
      rw [mem_steps_lvl h1 (by omega)]
      refine ⟨i, hi, ?_⟩
      rw [show m + 1 - e = (m - e) + 1 by omega, pow_succ]
      ring

/-- … and of the subgrid with one more level on the first axis -/
theorem double_mem_succ {m e : ℕ} {p n : List ℕ} (he : ∀ e' ∈ e :: p, 1 ≤ e' ∧ e' ≤ m) (h : n ∈ subNodes m (lvl m) (e :: p)) :
    n.map (2 * ·) ∈ subNodes (m + 1) (lvl (m + 1)) ((e + 1) :: p) := by
  have h0 := double_mem he h
  obtain ⟨h1, h2⟩ := he e (by simp)
  rw [subNodes, List.map_cons, mem_product] at h0 ⊢
  cases hn : n.map (2 * ·) with
  | nil => rw [hn] at h0; cases h0
  | cons a n' =>
    rw [hn] at h0
    cases h0 with
    | cons ha hn =>
      refine .cons ?_ hn
      rw [mem_steps_lvl h1 (by omega)] at ha
      rw [mem_steps_lvl (by omega) (by omega)]
      obtain ⟨i, hi, rfl⟩ := ha
      refine ⟨2 * i, ?_, ?_⟩
      · rw [lvl_succ h1]; omega
      · rw [show m + 1 - e = (m + 1 - (e + 1)) + 1 by omega, pow_succ]
        ring

variable {q d : ℕ} {nodes nodes' : List (List ℕ)} {subs subs' : List Sub}

theorem GridOK.mem_iff (h : GridOK q d nodes subs) (hd : 1 ≤ d) (hq : d ≤ q) {n : List ℕ} : n ∈ nodes ↔ ∃ p : List ℕ,
    (p.length = d ∧ (∀ e ∈ p, 1 ≤ e) ∧ q + 1 ≤ p.sum + d ∧ p.sum ≤ q) ∧ n ∈ subNodes (q - d + 1) (lvl (q - d + 1)) p := by
  rw [h.mem]
  constructor
  · rintro ⟨g, hg, hn⟩
    exact ⟨g.p, (mem_genQ hd hq h.keys).1 (List.mem_map.2 ⟨g, hg, rfl⟩), hn⟩
  · rintro ⟨p, hp, hn⟩
    obtain ⟨g, hg, rfl⟩ := List.mem_map.1 ((mem_genQ hd hq h.keys).2 hp)
    exact ⟨g, hg, hn⟩

/-- the old nodes, doubled, are nodes of the refined grid -/
theorem GridOK.double (h : GridOK q d nodes subs) (h' : GridOK (q + 1) d nodes' subs') (hd : 1 ≤ d) (hq : d ≤ q) {n : List ℕ}
    (hn : n ∈ nodes) : n.map (2 * ·) ∈ nodes' := by
  obtain ⟨p, ⟨h1, h2, h3, h4⟩, hm⟩ := (h.mem_iff hd hq).1 hn
  have hlev := level_le h1 h2 h4
  cases p with
  | nil => simp at h1; omega
  | cons e p =>
    refine (h'.mem_iff hd (by omega)).2 ⟨(e + 1) :: p, ⟨by simpa using h1, ?_, ?_, ?_⟩, ?_⟩
    · intro e' he'
      rcases List.mem_cons.1 he' with rfl | he'
      · omega
      · exact h2 e' (List.mem_cons_of_mem _ he')
    · simp only [List.sum_cons] at h3 ⊢; omega
    · simp only [List.sum_cons] at h4 ⊢; omega
    · rw [show q + 1 - d + 1 = q - d + 1 + 1 by omega]
      exact double_mem_succ hlev hm

theorem zero_mem_steps (m e : ℕ) : 0 ∈ steps (lvl m) (2 ^ (m - e)) := by
  have hs : 0 < 2 ^ (m - e) := by positivity
  have := two_le_lvl m
  rw [steps, List.mem_map]
  refine ⟨0, List.mem_range.2 (Nat.div_pos (by omega) hs), by simp⟩

theorem zero_mem_subNodes (m : ℕ) : ∀ p : List ℕ, (p.map fun _ => 0) ∈ subNodes m (lvl m) p
  | [] => by simp [subNodes, product]
  | e :: p => by
    rw [subNodes, List.map_cons, List.map_cons, mem_product]
    exact .cons (zero_mem_steps m e) (mem_product.1 (zero_mem_subNodes m p))

/-- the refined grid has a node with an odd index -/
theorem GridOK.odd (h : GridOK q d nodes subs) (hd : 1 ≤ d) (hq : d ≤ q) : ∃ n, (1 :: n) ∈ nodes := by
  obtain ⟨k, rfl⟩ : ∃ k, d = k + 1 := ⟨d - 1, by omega⟩
  refine ⟨(List.replicate k 1).map fun _ => 0, (h.mem_iff hd hq).2 ⟨(q - (k + 1) + 1) :: List.replicate k 1, ⟨by simp, ?_, ?_, ?_⟩, ?_⟩⟩
  · intro e he
    rcases List.mem_cons.1 he with rfl | he
    · omega
    · rw [List.eq_of_mem_replicate he]
  · simp; omega
  · simp; omega
  · rw [subNodes, List.map_cons, mem_product]
    refine .cons ?_ (mem_product.1 (zero_mem_subNodes _ _))
    rw [mem_steps_lvl (by omega) le_rfl]
    exact ⟨1, by have := two_le_lvl (q - (k + 1) + 1); omega, by simp⟩

theorem mem_incNodes {old new : List (List ℕ)} {n : List ℕ} : n ∈ incNodes old new ↔ n ∈ new ∧ n ∉ old := by
  rw [incNodes, List.mem_mergeSort, List.mem_dedup, List.mem_filter]
  simp

theorem getElem?_idxOf {l : List (List ℕ)} {g : List ℕ → ℝ} {n : List ℕ} (hn : n ∈ l) : (l.map g)[l.idxOf n]? = some (g n) := by
  rw [List.getElem?_map, List.getElem?_eq_getElem (List.idxOf_lt_length_of_mem hn), List.getElem_idxOf]
  rfl

/-- the loop over the new nodes gives each its value -/
theorem newValues_eq {old inc : List (List ℕ)} {ys incYs : List ℝ} {F : List ℕ → ℝ}
    (ho : ∀ n ∈ old, ys[old.idxOf n]? = some (F n)) (hi : ∀ n ∈ inc, incYs[inc.idxOf n]? = some (F n)) :
    ∀ (ns : List (List ℕ)) (Y : Option ℝ), (∀ n ∈ ns, n ∈ old ∨ n ∈ inc) → newValues old inc ys incYs ns Y = .ok (ns.map F)
  | [], _, _ => rfl
  | n :: ns, Y, h => by
    have h0 : newValue old inc ys incYs n Y = some (F n) := by
      unfold newValue
      dsimp only
      split_ifs with h1 h2
      · exact hi n h1
      · exact ho n h2
      · exact absurd (h n (by simp)) (by tauto)
    rw [newValues, h0]
    dsimp only
    rw [newValues_eq ho hi ns _ fun n hn => h n (List.mem_cons_of_mem _ hn)]
    rfl

theorem length_mem_subNodes {m : ℕ} {p n : List ℕ} (h : n ∈ subNodes m (lvl m) p) : n.length = p.length := by
  rw [subNodes, mem_product] at h
  rw [h.length_eq, List.length_map]

theorem GridOK.length (h : GridOK q d nodes subs) (hd : 1 ≤ d) (hq : d ≤ q) {n : List ℕ} (hn : n ∈ nodes) : n.length = d := by
  obtain ⟨p, ⟨h1, -⟩, hm⟩ := (h.mem_iff hd hq).1 hn
  rw [length_mem_subNodes hm, h1]

theorem mem_subNodes_lt {m : ℕ} : ∀ {p n : List ℕ}, (∀ e ∈ p, 1 ≤ e ∧ e ≤ m) → n ∈ subNodes m (lvl m) p → ∀ i ∈ n, i < lvl m
  | [], n, _, h => by
    rw [subNodes, List.map_nil, product, List.mem_singleton] at h
    rw [h]; simp
  | e :: p, n, he, h => by
    rw [subNodes, List.map_cons, mem_product] at h
    cases h with
    | cons ha hn =>
      intro i hi
      rcases List.mem_cons.1 hi with rfl | hi
      · rw [steps, List.mem_map] at ha
        obtain ⟨j, hj, rfl⟩ := ha
        rw [List.mem_range] at hj
        have hs : 0 < 2 ^ (m - e) := by positivity
        have := (Nat.lt_div_iff_mul_lt hs).1 hj
        omega
      · exact mem_subNodes_lt (fun e he' => he e (by simp [he'])) (mem_product.2 hn) i hi

theorem GridOK.lt (h : GridOK q d nodes subs) (hd : 1 ≤ d) (hq : d ≤ q) {n : List ℕ} (hn : n ∈ nodes) : ∀ i ∈ n, i < lvl (q - d + 1) := by
  obtain ⟨p, ⟨h1, h2, h3, h4⟩, hm⟩ := (h.mem_iff hd hq).1 hn
  exact mem_subNodes_lt (level_le h1 h2 h4) hm

/-- a doubled node has the same coordinates on the next level -/
theorem coords_double {m : ℕ} (hm : 1 ≤ m) : ∀ {box : List (ℝ × ℝ)} {n : List ℕ}, (∀ i ∈ n, i < lvl m) →
    coords box (lvl (m + 1)) (n.map (2 * ·)) = coords box (lvl m) n
  | [], _, _ => by simp [coords]
  | _ :: _, [], _ => by simp [coords]
  | ab :: box, i :: n, h => by
    have ih := coords_double hm (box := box) (n := n) fun i hi => h i (List.mem_cons_of_mem _ hi)
    rw [coords, List.map_cons, List.zipWith_cons_cons, coords, List.zipWith_cons_cons, ← coords, ← coords, ih]
    have := cheb_lvl hm (Nat.le_succ m) ab.1 ab.2 (h i (by simp))
    rw [Nat.succ_sub (le_refl m), Nat.sub_self, pow_one, mul_comm] at this
    rw [this]

theorem mapM_ok {α β : Type*} {g : α → Except PyErr β} : ∀ {l : List α}, (∀ a ∈ l, ∃ b, g a = .ok b) → ∃ bs, l.mapM g = .ok bs
  | [], _ => ⟨[], rfl⟩
  | a :: l, h => by
    obtain ⟨b, hb⟩ := h a (by simp)
    obtain ⟨bs, hbs⟩ := mapM_ok fun a' ha' => h a' (List.mem_cons_of_mem _ ha')
    exact ⟨b :: bs, by rw [List.mapM_cons, hb, hbs]; rfl⟩

theorem Inv.exps_append {f : List ℝ → ℝ} {s : St} (h : Inv f s) (hn : Next s) (e : ℕ) : Inv f { s with exps := s.exps ++ [e] } where
  d1 := h.d1
  dq := h.dq
  box := h.box
  exps := by
    intro e' h1 h2
    show (s.exps ++ [e])[e']? = _
    rw [List.getElem?_append_left (by rw [hn.length]; have : e' ≤ s.q - s.d + 1 := h2; omega)]
    exact h.exps e' h1 h2
  grid := h.grid
  ys := h.ys

/-- one round -/
theorem round_spec {f : List ℝ → ℝ} (stop : List (ℝ × ℝ) → Bool) {s : St} (h : Inv f s) (hn : Next s) (hist : List (ℝ × ℝ)) :
    ∃ s' hist' b, round f stop s hist = .ok (s', hist', b) ∧ Inv f s' ∧ (b = true → Next s') ∧ s'.d = s.d ∧ s'.box = s.box ∧
      (s'.q = s.q ∨ s'.q = s.q + 1) := by
  have hd := h.d1
  have hq := h.dq
  have hexp : ∀ e, 1 ≤ e → e ≤ s.q - s.d + 3 → (s.exps ++ [s.ni])[e]? = some (lvl e) := by
    intro e h1 h2
    by_cases he : e = s.q - s.d + 3
    · rw [he, ← hn.length, List.getElem?_concat_length, hn.ni, hn.length]
    · rw [List.getElem?_append_left (by rw [hn.length]; omega)]
      exact hn.exps e h1 (by omega)
  have hm : s.q + 1 - s.d + 1 = s.q - s.d + 2 := by omega
  obtain ⟨nodes, subs, hg, hgrid⟩ := getNodes_spec (q := s.q + 1) (d := s.d) (by omega) (exps := s.exps ++ [s.ni]) (hexp _ (by omega) (by omega))
  have hacc : access (s.exps ++ [s.ni]) (s.q + 1 - s.d + 1) = .ok (lvl (s.q + 1 - s.d + 1)) := by
    rw [access, hexp _ (by omega) (by omega)]
  have hne : incNodes (s.nodes.map fun n => n.map (2 * ·)) nodes ≠ [] := by
    obtain ⟨n, hn⟩ := hgrid.odd hd (by omega)
    have : (1 :: n) ∈ incNodes (s.nodes.map fun n => n.map (2 * ·)) nodes := by
      refine mem_incNodes.2 ⟨hn, fun hc => ?_⟩
      obtain ⟨n', -, hn'⟩ := List.mem_map.1 hc
      cases n' with
      | nil => simp at hn'
      | cons a n' => simp only [List.map_cons, List.cons.injEq] at hn'; omega
    exact List.ne_nil_of_mem this
  have hInv := h.exps_append hn s.ni
  obtain ⟨vals, hvals⟩ := mapM_ok (g := interpAt { s with exps := s.exps ++ [s.ni] })
    (l := (incNodes (s.nodes.map fun n => n.map (2 * ·)) nodes).map (coords s.box (lvl (s.q + 1 - s.d + 1)))) (by
      intro X hX
      obtain ⟨n, hn, rfl⟩ := List.mem_map.1 hX
      exact ⟨_, hInv.interpAt (by
        rw [coords, List.length_zipWith, h.box, hgrid.length hd (by omega) (mem_incNodes.1 hn).1, min_self])⟩)
  rw [round, hg]
  simp only [Except.bind, hacc, if_neg hne, hvals]
  split_ifs with hstop
  · exact ⟨_, _, _, rfl, hInv, by simp, rfl, rfl, .inl rfl⟩
  · have hnv := newValues_eq (F := fun n => f (coords s.box (lvl (s.q + 1 - s.d + 1)) n)) (old := s.nodes.map fun n => n.map (2 * ·))
      (inc := incNodes (s.nodes.map fun n => n.map (2 * ·)) nodes) (ys := s.ys)
      (incYs := (incNodes (s.nodes.map fun n => n.map (2 * ·)) nodes).map fun n => f (coords s.box (lvl (s.q + 1 - s.d + 1)) n))
      (by
        intro n hn
        have e1 : s.ys = (s.nodes.map fun n => n.map (2 * ·)).map fun n => f (coords s.box (lvl (s.q + 1 - s.d + 1)) n) := by
          rw [h.ys, List.map_map]
          refine List.map_congr_left fun n hn => ?_
          show _ = f _
          rw [show s.q + 1 - s.d + 1 = (s.q - s.d + 1) + 1 by omega, coords_double (by omega) (h.grid.lt hd hq hn)]
        rw [e1]
        exact getElem?_idxOf hn)
      (fun n hn => getElem?_idxOf hn) nodes none
      (fun n hn => by
        by_cases ho : n ∈ s.nodes.map fun n => n.map (2 * ·)
        · exact .inl ho
        · exact .inr (mem_incNodes.2 ⟨hn, ho⟩))
    rw [hnv]
    refine ⟨_, _, _, rfl, ⟨hd, Nat.le_succ_of_le hq, h.box, ?_, hgrid, rfl⟩, fun _ => ⟨?_, ?_, ?_⟩, rfl, rfl, .inr rfl⟩
    · intro e h1 h2
      have h2' : e ≤ s.q + 1 - s.d + 1 := h2
      exact hexp e h1 (by omega)
    · intro e h1 h2
      have h2' : e ≤ s.q + 1 - s.d + 2 := h2
      exact hexp e h1 (by omega)
    · show (s.exps ++ [s.ni]).length = s.q + 1 - s.d + 3
      rw [List.length_append, hn.length, List.length_singleton]; omega
    · show s.ni * 2 - 1 = lvl (s.q + 1 - s.d + 3)
      rw [hn.ni, ← lvl_succ (by omega)]
      congr 1; omega

theorem adapt_spec {f : List ℝ → ℝ} (stop : List (ℝ × ℝ) → Bool) : ∀ (k : ℕ) {s : St} (_ : Inv f s) (_ : Next s) (hist : List (ℝ × ℝ)),
    ∃ s', adapt f stop k s hist = .ok s' ∧ Inv f s' ∧ s'.d = s.d ∧ s'.box = s.box ∧ s.q ≤ s'.q ∧ s'.q ≤ s.q + k
  | 0, s, h, _, _ => ⟨s, rfl, h, rfl, rfl, le_rfl, le_rfl⟩
  | k + 1, s, h, hn, hist => by
    obtain ⟨s', hist', b, h1, h2, h3, h4, h5, h6⟩ := round_spec stop h hn hist
    rw [adapt, h1, Except.bind]
    dsimp only
    cases b with
    | false => exact ⟨s', rfl, h2, h4, h5, by omega, by omega⟩
    | true =>
      obtain ⟨s'', g1, g2, g3, g4, g5, g6⟩ := adapt_spec stop k h2 (h3 rfl) hist'
      exact ⟨s'', by simpa using g1, g2, by rw [g3, h4], by rw [g4, h5], by omega, by omega⟩

/-- the finished interpolator -/
theorem build_spec (f : List ℝ → ℝ) (stop : List (ℝ × ℝ) → Bool) {d : ℕ} (hd : 1 ≤ d) {box : List (ℝ × ℝ)} (hb : box.length = d) (maxq : ℕ) :
    ∃ s, build f stop d box maxq = .ok s ∧ Inv f s ∧ s.d = d ∧ s.box = box ∧ s.q ≤ max d (maxq + 1) := by
  have h1 : lvl (d - d + 1) = 11 := by rw [Nat.sub_self]; rfl
  obtain ⟨nodes, subs, hg, hgrid⟩ := getNodes_spec (q := d) (d := d) le_rfl (exps := initExps.1) (by rw [h1, Nat.sub_self]; rfl)
  have hi : init f d box = .ok ⟨d, box, d, initExps.2, initExps.1, nodes, subs, nodes.map fun n => f (coords box 11 n)⟩ := by
    rw [init, hg, Except.bind, Nat.sub_self]
    rfl
  obtain ⟨s', g1, g2, g3, g4, g5, g6⟩ := adapt_spec (f := f) stop (maxq + 1 - d)
    (s := ⟨d, box, d, initExps.2, initExps.1, nodes, subs, nodes.map fun n => f (coords box 11 n)⟩)
    ⟨hd, le_rfl, hb, by
      intro e he1 he2
      have : e = 1 := by have : e ≤ d - d + 1 := he2; omega
      subst this; rfl, hgrid, by
      show _ = nodes.map fun n => f (coords box (lvl (d - d + 1)) n)
      rw [h1]⟩
    ⟨by
      intro e he1 he2
      have : e = 1 ∨ e = 2 := by have : e ≤ d - d + 2 := he2; omega
      rcases this with rfl | rfl <;> rfl, by show 3 = d - d + 3; omega, by show 41 = lvl (d - d + 3); rw [Nat.sub_self]; rfl⟩ []
  refine ⟨s', by rw [build, hi]; exact g1, g2, g3, g4, ?_⟩
  have : s'.q ≤ d + (maxq + 1 - d) := g6
  omega

end Sparse
end Pacal
