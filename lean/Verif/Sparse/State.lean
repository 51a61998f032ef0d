import Verif.Sparse.Lemmas

/-! Lemmas for `Sparse/Props.lean`: the state of the interpolator. -/

namespace Pacal
namespace Sparse
open Nodes

/-- the nodes and the subgrids of level `q` -/
structure GridOK (q d : ℕ) (nodes : List (List ℕ)) (subs : List Sub) : Prop where
  keys : genQ q d = .ok (subs.map Sub.p)
  sub : ∀ g ∈ subs, g.OK q d (lvl (q - d + 1)) nodes
  nodup : nodes.Nodup
  mem : ∀ n, n ∈ nodes ↔ ∃ g ∈ subs, n ∈ subNodes (q - d + 1) (lvl (q - d + 1)) g.p

theorem getNodes_spec {q d : ℕ} (hq : d ≤ q) {exps : List ℕ} (he : exps[q - d + 1]? = some (lvl (q - d + 1))) :
    ∃ nodes subs, getNodes d exps q = .ok (nodes, subs) ∧ GridOK q d nodes subs := by
  obtain ⟨Q, hQ⟩ : ∃ Q, genQ q d = .ok Q := by
    unfold genQ
    split_ifs <;> exact ⟨_, rfl⟩
  obtain ⟨-, -, h1, h2, h3⟩ := subgrids_spec (q := q) (d := d) (maxd := lvl (q - d + 1)) (t := ⟨[], []⟩) ⟨by simp, by simp⟩ Q
  obtain ⟨h0, -⟩ := subgrids_spec (q := q) (d := d) (maxd := lvl (q - d + 1)) (t := ⟨[], []⟩) ⟨by simp, by simp⟩ Q
  refine ⟨_, _, ?_, ⟨?_, h2, h0.nodup, fun n => ?_⟩⟩
  · rw [getNodes, hQ, access, he]
    rfl
  · rw [hQ, h1]
  · rw [h3 n]
    simp only [List.not_mem_nil, false_or]
    conv_lhs => rw [← h1]
    simp

/-- the invariant of the interpolator -/
structure Inv (f : List ℝ → ℝ) (s : St) : Prop where
  d1 : 1 ≤ s.d
  dq : s.d ≤ s.q
  box : s.box.length = s.d
  exps : ∀ e, 1 ≤ e → e ≤ s.q - s.d + 1 → s.exps[e]? = some (lvl e)
  grid : GridOK s.q s.d s.nodes s.subs
  ys : s.ys = s.nodes.map fun n => f (coords s.box (lvl (s.q - s.d + 1)) n)

/-- ready for the next round -/
structure Next (s : St) : Prop where
  exps : ∀ e, 1 ≤ e → e ≤ s.q - s.d + 2 → s.exps[e]? = some (lvl e)
  length : s.exps.length = s.q - s.d + 3
  ni : s.ni = lvl (s.q - s.d + 3)

theorem Inv.mem_keys {f : List ℝ → ℝ} {s : St} (h : Inv f s) {p : List ℕ} (hp : p ∈ s.subs.map Sub.p) :
    p.length = s.d ∧ (∀ e ∈ p, 1 ≤ e) ∧ s.q + 1 ≤ p.sum + s.d ∧ p.sum ≤ s.q := (mem_genQ h.d1 h.dq h.grid.keys).1 hp

theorem length_le_sum : ∀ {p : List ℕ}, (∀ e ∈ p, 1 ≤ e) → p.length ≤ p.sum
  | [], _ => le_rfl
  | e :: p, h => by
    have h1 := h e (by simp)
    have h2 := length_le_sum fun e' he' => h e' (List.mem_cons_of_mem _ he')
    simp only [List.length_cons, List.sum_cons]
    omega

theorem add_length_le_sum : ∀ {p : List ℕ} {e : ℕ}, (∀ e ∈ p, 1 ≤ e) → e ∈ p → e + p.length ≤ p.sum + 1
  | a :: p, e, h, he => by
    have h1 := h a (by simp)
    have h2 : ∀ e ∈ p, 1 ≤ e := fun e' he' => h e' (List.mem_cons_of_mem _ he')
    simp only [List.length_cons, List.sum_cons]
    rcases List.mem_cons.1 he with rfl | he
    · have := length_le_sum h2; omega
    · have := add_length_le_sum h2 he; omega

theorem level_le {q d : ℕ} {p : List ℕ} (hl : p.length = d) (h1 : ∀ e ∈ p, 1 ≤ e) (hs : p.sum ≤ q) : ∀ e ∈ p, 1 ≤ e ∧ e ≤ q - d + 1 := by
  intro e he
  have := add_length_le_sum h1 he
  have := length_le_sum h1
  exact ⟨h1 e he, by omega⟩

/-! ### values -/

theorem gather_eq {ys : List ℝ} : ∀ {idx : List ℕ} {vs : List ℝ}, idx.map (ys[·]?) = vs.map some → gather ys idx = .ok vs
  | [], [], _ => rfl
  | i :: idx, v :: vs, h => by
    simp only [List.map_cons, List.cons.injEq] at h
    rw [gather, access, h.1, gather_eq h.2]
    rfl
  | [], _ :: _, h => by simp at h
  | _ :: _, [], h => by simp at h

/-- the values of a subgrid -/
theorem Inv.gather {f : List ℝ → ℝ} {s : St} (h : Inv f s) {g : Sub} (hg : g ∈ s.subs) :
    gather s.ys g.idx = .ok ((product (g.p.map fun e => List.range (lvl e))).map fun i => f (coordsE s.box g.p i)) := by
  obtain ⟨h1, h2, h3, h4⟩ := h.mem_keys (List.mem_map.2 ⟨g, hg, rfl⟩)
  have hc := coords_subNodes (m := s.q - s.d + 1) (box := s.box) (p := g.p) (by rw [h.box, h1]) (level_le h1 h2 h4)
  refine gather_eq ?_
  have e1 : (product (g.p.map fun e => List.range (lvl e))).map (fun i => f (coordsE s.box g.p i)) =
      ((subNodes (s.q - s.d + 1) (lvl (s.q - s.d + 1)) g.p).map (coords s.box (lvl (s.q - s.d + 1)))).map f := by
    rw [hc, List.map_map]; rfl
  rw [e1, h.ys, List.map_map, List.map_map]
  have e2 : g.idx.map ((s.nodes.map fun n => f (coords s.box (lvl (s.q - s.d + 1)) n))[·]?) =
      (g.idx.map (s.nodes[·]?)).map (Option.map fun n => f (coords s.box (lvl (s.q - s.d + 1)) n)) := by
    rw [List.map_map]
    refine List.map_congr_left fun i _ => ?_
    simp
  rw [e2, (h.grid.sub g hg).2, List.map_map]
  rfl

/-- the weights of a subgrid -/
noncomputable def gridW : List (ℝ × ℝ) → List ℝ → List ℕ → List (List ℝ)
  | ab :: box, x :: X, e :: p => axW ab x e :: gridW box X p
  | _, _, _ => []

theorem subWeights_eq {exps : List ℕ} : ∀ {p : List ℕ} {box : List (ℝ × ℝ)} {X : List ℝ}, box.length = p.length → X.length = p.length →
    (∀ e ∈ p, exps[e]? = some (lvl e)) → subWeights exps p box X = .ok (gridW box X p)
  | [], [], [], _, _, _ => rfl
  | e :: p, ab :: box, x :: X, h1, h2, h3 => by
    rw [subWeights, access, h3 e (by simp), subWeights_eq (by simpa using h1) (by simpa using h2) fun e he => h3 e (by simp [he])]
    rfl

theorem length_gridW : ∀ {p : List ℕ} {box : List (ℝ × ℝ)} {X : List ℝ}, box.length = p.length → X.length = p.length →
    (gridW box X p).map List.length = p.map lvl
  | [], [], [], _, _ => rfl
  | e :: p, ab :: box, x :: X, h1, h2 => by
    rw [gridW, List.map_cons, List.map_cons, length_axW, length_gridW (by simpa using h1) (by simpa using h2)]

/-- the value of a subgrid at `X` -/
noncomputable def subVal (f : List ℝ → ℝ) (box : List (ℝ × ℝ)) (X : List ℝ) (p : List ℕ) : ℝ :=
  ((product (p.map fun e => List.range (lvl e))).map fun i => f (coordsE box p i) * weightAt (gridW box X p) i).sum /
    ((gridW box X p).map List.sum).prod

theorem Inv.evalSubs {f : List ℝ → ℝ} {s : St} (h : Inv f s) {X : List ℝ} (hX : X.length = s.d) : ∀ gs : List Sub, (∀ g ∈ gs, g ∈ s.subs) →
    evalSubs s X gs = .ok ((gs.map fun g => ((coef s.q s.d g.p.sum : ℚ) : ℝ) * subVal f s.box X g.p).sum)
  | [], _ => rfl
  | g :: gs, hg => by
    have hgm := hg g (by simp)
    obtain ⟨h1, h2, h3, h4⟩ := h.mem_keys (List.mem_map.2 ⟨g, hgm, rfl⟩)
    have hb : s.box.length = g.p.length := by rw [h.box, h1]
    have hX' : X.length = g.p.length := by rw [hX, h1]
    have hlev := level_le h1 h2 h4
    have hw : ∀ w ∈ gridW s.box X g.p, 0 < w.length := by
      intro w hw
      have : w.length ∈ (gridW s.box X g.p).map List.length := List.mem_map.2 ⟨w, hw, rfl⟩
      rw [length_gridW hb hX'] at this
      obtain ⟨e, -, he⟩ := List.mem_map.1 this
      have := two_le_lvl e
      omega
    have hf := fullGrid_eq hw fun i => f (coordsE s.box g.p i)
    rw [length_gridW hb hX', List.map_map] at hf
    rw [Sparse.evalSubs, subWeights_eq hb hX' fun e he => h.exps e (hlev e he).1 (hlev e he).2, Except.bind, h.gather hgm, Except.bind]
    have e0 : (List.range ∘ lvl) = fun e => List.range (lvl e) := rfl
    rw [e0] at hf
    rw [hf, Except.bind, Inv.evalSubs h hX gs fun g' hg' => hg g' (List.mem_cons_of_mem _ hg'), (h.grid.sub g hgm).1]
    rfl

/-- the value of the interpolator -/
theorem Inv.interpAt {f : List ℝ → ℝ} {s : St} (h : Inv f s) {X : List ℝ} (hX : X.length = s.d) :
    interpAt s X = .ok (((s.subs.map Sub.p).map fun p => ((coef s.q s.d p.sum : ℚ) : ℝ) * subVal f s.box X p).sum) := by
  rw [Sparse.interpAt, h.evalSubs hX s.subs fun _ => id, List.map_map]
  rfl

/-! ### a product of functions -/

/-- the product of functions of one variable each -/
noncomputable def valAt (gs : List (ℝ → ℝ)) (X : List ℝ) : ℝ := (List.zipWith (fun g x => g x) gs X).prod

/-- the values on the axes -/
noncomputable def axUs : List (ℝ × ℝ) → List ℝ → List (ℝ → ℝ) → List (ℕ → ℝ)
  | ab :: box, x :: X, g :: gs => axU ab x g :: axUs box X gs
  | _, _, _ => []

theorem subVal_prod : ∀ {p : List ℕ} {box : List (ℝ × ℝ)} {X : List ℝ} {gs : List (ℝ → ℝ)}, box.length = p.length → X.length = p.length →
    gs.length = p.length → subVal (valAt gs) box X p = prodAt (axUs box X gs) p
  | [], [], [], [], _, _, _ => by simp [subVal, product, valAt, coordsE, weightAt, gridW, axUs, prodAt]
  | e :: p, ab :: box, x :: X, g :: gs, h1, h2, h3 => by
    have ih := subVal_prod (p := p) (box := box) (X := X) (gs := gs) (by simpa using h1) (by simpa using h2) (by simpa using h3)
    rw [axUs, prodAt, List.zipWith_cons_cons, List.prod_cons, ← prodAt, ← ih, subVal, subVal, gridW, List.map_cons, product,
      List.map_flatMap, sum_flatMap', List.map_cons, List.prod_cons, axU, div_mul_div_comm]
    congr 1
    rw [← sum_range, ← List.sum_map_mul_right]
    congr 1
    refine List.map_congr_left fun i _ => ?_
    rw [List.map_map, ← List.sum_map_mul_left]
    congr 1
    refine List.map_congr_left fun n _ => ?_
    show valAt (g :: gs) (coordsE (ab :: box) (e :: p) (i :: n)) * weightAt (axW ab x e :: gridW box X p) (i :: n) = _
    rw [coordsE, weightAt_cons, valAt, List.zipWith_cons_cons, List.prod_cons, ← valAt]
    ring

theorem subVal_sum (terms : List (ℝ × List (ℝ → ℝ))) (box : List (ℝ × ℝ)) (X : List ℝ) (p : List ℕ) :
    subVal (fun Y => (terms.map fun t => t.1 * valAt t.2 Y).sum) box X p = (terms.map fun t => t.1 * subVal (valAt t.2) box X p).sum := by
  induction terms with
  | nil => simp [subVal]
  | cons t ts ih =>
    rw [List.map_cons, List.sum_cons, ← ih]
    simp only [subVal, List.map_cons, List.sum_cons, add_mul, List.sum_map_add, add_div]
    rw [mul_div_assoc', ← List.sum_map_mul_left]
    simp only [mul_assoc]

/-- a function that the axes reproduce from level `k` on, at the point `x` -/
def Repr (t : ((ℝ × ℝ) × ℝ) × ((ℝ → ℝ) × ℕ)) : Prop := 1 ≤ t.2.2 ∧ ∀ e, t.2.2 ≤ e → axU t.1.1 t.1.2 t.2.1 e = t.2.1 t.1.2

theorem comb_prod {q : ℕ} {ts : List (((ℝ × ℝ) × ℝ) × ((ℝ → ℝ) × ℕ))} (hts : ts ≠ []) (hq : ts.length ≤ q) {Q : List (List ℕ)}
    (hQ : genQ q ts.length = .ok Q) (hk : (ts.map fun t => t.2.2).sum ≤ q) (hr : ∀ t ∈ ts, Repr t) :
    (Q.map fun p => ((coef q ts.length p.sum : ℚ) : ℝ) * subVal (valAt (ts.map fun t => t.2.1)) (ts.map fun t => t.1.1) (ts.map fun t => t.1.2) p).sum =
      valAt (ts.map fun t => t.2.1) (ts.map fun t => t.1.2) := by
  have hlen : 1 ≤ ts.length := List.length_pos_iff.2 hts
  have hus : ∀ ts : List (((ℝ × ℝ) × ℝ) × ((ℝ → ℝ) × ℕ)), axUs (ts.map fun t => t.1.1) (ts.map fun t => t.1.2) (ts.map fun t => t.2.1) =
      ts.map fun t => axU t.1.1 t.1.2 t.2.1 := by
    intro ts
    induction ts with
    | nil => rfl
    | cons t ts ih => simp only [List.map_cons, axUs, ih]
  have hc := comb_exact (ts := ts.map fun t => (axU t.1.1 t.1.2 t.2.1, t.2.2, t.2.1 t.1.2)) (by simpa using hts) (q := q) (by simpa using hq) (Q := Q)
    (by simpa using hQ) (by rw [List.map_map]; exact hk) (by
      intro t ht k hk'
      obtain ⟨t', ht', rfl⟩ := List.mem_map.1 ht
      obtain ⟨r1, r2⟩ := hr t' ht'
      have hk'' : t'.2.2 ≤ k := hk'
      rw [pos, if_neg (by omega)]
      exact r2 k hk'')
  rw [List.length_map, List.map_map, List.map_map] at hc
  have e1 : valAt (ts.map fun t => t.2.1) (ts.map fun t => t.1.2) = (ts.map fun t => t.2.1 t.1.2).prod := by
    rw [valAt, List.zipWith_map, List.zipWith_self]
  rw [e1]
  refine Eq.trans ?_ hc
  congr 1
  refine List.map_congr_left fun p hp => ?_
  obtain ⟨hl, -⟩ := (mem_genQ hlen hq hQ).1 hp
  rw [subVal_prod (by simp [hl]) (by simp [hl]) (by simp [hl]), hus]
  rfl

end Sparse
end Pacal
