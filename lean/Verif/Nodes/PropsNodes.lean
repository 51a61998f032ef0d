import Verif.Nodes.Lemmas

/-!
# Properties C39 and C40: interpolation grids and their refinement
-/

namespace Pacal
open Real Mon Nodes

/-- A grid of `n` points on `[a, b]`: strictly increasing, from `a` to `b`. -/
structure IsClosedGrid (xs : List ℝ) (n : ℕ) (a b : ℝ) : Prop where
  length : xs.length = n
  sorted : xs.Pairwise (· < ·)
  first : xs.head? = some a
  last : xs.getLast? = some b
  inside : ∀ x ∈ xs, a ≤ x ∧ x ≤ b

/-- A grid of `n` points strictly inside `(a, b)`. -/
structure IsOpenGrid (xs : List ℝ) (n : ℕ) (a b : ℝ) : Prop where
  length : xs.length = n
  sorted : xs.Pairwise (· < ·)
  inside : ∀ x ∈ xs, a < x ∧ x < b

/-- `new` are exactly the points of the fine grid missing from the coarse one. -/
def IsIncrement (coarse new fine : List ℝ) : Prop :=
  (∀ x, x ∈ fine ↔ x ∈ coarse ∨ x ∈ new) ∧ (∀ x ∈ coarse, x ∉ new) ∧ fine.Nodup ∧
    fine.length = coarse.length + new.length

/-- **C39.** For every interval and every `n ≥ 2` the Chebyshev points form a grid of `n` points from end to
end. -/
theorem C39_cheb_grid {n : ℕ} (hn : 2 ≤ n) {a b : ℝ} (hab : a < b) : IsClosedGrid (cheb n a b) n a b := by
  rw [cheb_eq hn]
  refine ⟨by simp, pairwise_range_map fun i j hij hj => nodeAt_lt hab hij hj, ?_, ?_, ?_⟩
  · obtain ⟨m, rfl⟩ : ∃ m, n = m + 1 := ⟨n - 1, by omega⟩
    rw [List.range_succ_eq_map]
    simp [nodeAt, point_zero]
  · obtain ⟨m, rfl⟩ : ∃ m, n = m + 1 := ⟨n - 1, by omega⟩
    rw [List.range_succ]
    simpa using nodeAt_last hn a b
  · intro x hx
    obtain ⟨k, _, rfl⟩ := List.mem_map.1 hx
    exact point_mem hab.le _

/-- A single node is the middle of the interval. -/
theorem C39_cheb_one (a b : ℝ) : cheb 1 a b = [(a + b) / 2] := by
  simp [cheb]; ring

theorem C39_cheb1_grid (n : ℕ) {a b : ℝ} (hab : a < b) : IsOpenGrid (cheb1 n a b) n a b := by
  rw [cheb1_eq]
  refine ⟨by simp, pairwise_range_map fun i j hij hj => nodeAt1_lt hab hij hj, ?_⟩
  intro x hx
  obtain ⟨k, hk, rfl⟩ := List.mem_map.1 hx
  exact nodeAt1_mem hab (List.mem_range.1 hk)

/-- interleaving the old nodes and the new ones gives the finer grid, in order -/
theorem C39_combine {n : ℕ} (hn : 2 ≤ n) (a b : ℝ) :
    combineFast (cheb n a b) (inc (2 * n - 1) a b) = .ok (cheb (2 * n - 1) a b) := by
  have e1 : cheb n a b = (List.range n).map fun i => nodeAt (2 * n - 1) a b (2 * i) := by
    rw [cheb_eq hn]; congr 1; funext k; exact (nodeAt_double hn a b k).symm
  have e2 : (2 * n - 1 - 1) / 2 = n - 1 := by omega
  unfold combineFast
  rw [if_pos (by rw [e1, inc_eq]; simp; omega), e1, inc_eq, e2, interleave_range _ _ _ (by omega),
    cheb_eq (by omega)]
  congr 3
  omega

theorem increment_of_perm {coarse new fine : List ℝ} (hp : (coarse ++ new).Perm fine) (hn : fine.Nodup) :
    IsIncrement coarse new fine := by
  have hn' := hp.nodup_iff.2 hn
  refine ⟨fun x => ?_, fun x hx hx' => ?_, hn, ?_⟩
  · rw [← hp.mem_iff, List.mem_append]
  · exact (List.disjoint_of_nodup_append hn') hx hx'
  · rw [← hp.length_eq, List.length_append]

theorem interleave_perm {α : Type*} : ∀ (xs ys : List α), (xs ++ ys).Perm (interleave xs ys)
  | [], ys => by simp [interleave]
  | x :: xs, ys => by
    rw [interleave, List.cons_append]
    exact (List.perm_append_comm.trans (interleave_perm ys xs)).cons x
termination_by xs ys => xs.length + ys.length

/-- The grids are nested, and the incremental nodes are exactly the missing ones. -/
theorem C39_increment {n : ℕ} (hn : 2 ≤ n) {a b : ℝ} (hab : a < b) :
    IsIncrement (cheb n a b) (inc (2 * n - 1) a b) (cheb (2 * n - 1) a b) := by
  have h := C39_combine hn a b
  unfold combineFast at h
  split at h
  · injection h with h
    refine increment_of_perm ?_ ?_
    · rw [← h]; exact interleave_perm _ _
    · exact (C39_cheb_grid (n := 2 * n - 1) (by omega) hab).sorted.imp fun h => h.ne
  · cases h

theorem cheb1_perm {n : ℕ} (hn : 1 ≤ n) (a b : ℝ) :
    (cheb1 n a b ++ inc1 (3 * n) a b).Perm (cheb1 (3 * n) a b) := by
  have e1 : cheb1 n a b = ((List.range n).map fun i => 3 * i + 1).map (nodeAt1 (3 * n) a b) := by
    rw [cheb1_eq, List.map_map]; congr 1; funext k; exact (nodeAt1_triple hn a b k).symm
  rw [e1, inc1_eq, cheb1_eq, ← List.map_append]
  exact (range_triple_perm n).map _

theorem C39_increment1 {n : ℕ} (hn : 1 ≤ n) {a b : ℝ} (hab : a < b) :
    IsIncrement (cheb1 n a b) (inc1 (3 * n) a b) (cheb1 (3 * n) a b) :=
  increment_of_perm (cheb1_perm hn a b) ((C39_cheb1_grid (3 * n) hab).sorted.imp fun h => h.ne)

/-- **Violated for the logarithmic grid**: with five or more nodes it is not sorted (the cosine is not negated,
so the inner points come in decreasing order). -/
theorem C39_violated_log {n : ℕ} (hn : 4 ≤ n) {a b : ℝ} (ha : 0 < a) (hab : a < b) :
    ∃ xs, chebLog n a b = .ok xs ∧ ¬ xs.Pairwise (· < ·) := by
  refine ⟨_, if_pos ⟨ha, hab⟩, fun h => ?_⟩
  rw [List.pairwise_iff_getElem] at h
  have h12 := h 1 2 (by simp; omega) (by simp; omega) (by omega)
  simp only [List.getElem_set, List.getElem_map, List.getElem_range] at h12
  rw [if_neg (by omega), if_neg (by omega), if_neg (by omega), if_neg (by omega)] at h12
  have hn' : (0 : ℝ) < (n : ℝ) - 1 := by
    have : (4 : ℝ) ≤ n := by exact_mod_cast hn
    linarith
  have hcos : cos ((2 : ℕ) * π / ((n : ℝ) - 1)) < cos ((1 : ℕ) * π / ((n : ℝ) - 1)) := by
    apply Real.cos_lt_cos_of_nonneg_of_le_pi
    · positivity
    · rw [div_le_iff₀ hn']
      have : (4 : ℝ) ≤ n := by exact_mod_cast hn
      push_cast
      nlinarith [Real.pi_pos]
    · apply div_lt_div_of_pos_right _ hn'
      push_cast
      nlinarith [Real.pi_pos]
  have hlog : 0 < log (b / a) := Real.log_pos (by rw [lt_div_iff₀ ha]; linarith)
  have hsq : 0 < √(a * b) := Real.sqrt_pos.2 (by nlinarith)
  have : pointLog a b ((2 : ℕ) * π / ((n : ℝ) - 1)) < pointLog a b ((1 : ℕ) * π / ((n : ℝ) - 1)) := by
    unfold pointLog
    apply mul_lt_mul_of_pos_right _ hsq
    apply Real.exp_lt_exp.2
    nlinarith
  exact absurd h12 (not_lt.2 this.le)

/-- a grid with five nodes, refined to nine -/
example : IsClosedGrid (cheb 5 0 1) 5 0 1 ∧ IsIncrement (cheb 5 0 1) (inc 9 0 1) (cheb 9 0 1) :=
  ⟨C39_cheb_grid (by norm_num) one_pos, C39_increment (n := 5) (by norm_num) one_pos⟩
example : cheb 3 0 1 = [0, 1 / 2, 1] := by
  rw [cheb_eq (by norm_num)]
  simp [List.range_succ, nodeAt, point]
  norm_num
example : ∃ xs, chebLog 5 1 10 = .ok xs ∧ ¬ xs.Pairwise (· < ·) :=
  C39_violated_log (by norm_num) one_pos (by norm_num)

/-! ### C40 -/

/-- the four adaptive Chebyshev interpolators (interpolation.py:237-255, 294-310, 315-331, 381-400);
`interp` is the interpolant through given points -/
noncomputable def chebInterp (a b : ℝ) (interp : List (ℝ × ℝ) → ℝ → ℝ) : Interp ℝ :=
  ⟨fun n => cheb n a b, fun n => inc n a b, combineFast, interp⟩
noncomputable def chebNoLInterp (a b : ℝ) (interp : List (ℝ × ℝ) → ℝ → ℝ) : Interp ℝ :=
  ⟨fun n => (cheb n a b).tail, fun n => inc n a b, fun old new => combineFast new old, interp⟩
noncomputable def chebNoRInterp (a b : ℝ) (interp : List (ℝ × ℝ) → ℝ → ℝ) : Interp ℝ :=
  ⟨fun n => (cheb n a b).dropLast, fun n => inc n a b, combineFast, interp⟩
noncomputable def cheb1Interp (a b : ℝ) (interp : List (ℝ × ℝ) → ℝ → ℝ) : Interp ℝ :=
  ⟨fun n => cheb1 n a b, fun n => inc1 n a b, combineSort, interp⟩
/-- the logarithmic one (interpolation.py:273-292); the grid exists because the assertion holds for `0 < a < b` -/
noncomputable def logInterp (a b : ℝ) (interp : List (ℝ × ℝ) → ℝ → ℝ) : Interp ℝ :=
  ⟨fun n => ((List.range n).map (nodeAtLog n a b)).set 0 a |>.set (n - 1) b, fun n => incLog n a b, combineFast, interp⟩

theorem graph_interleave (f : ℝ → ℝ) (xs ys : List ℝ) :
    interleave (graph f xs) (graph f ys) = graph f (interleave xs ys) := (interleave_map _ _ _).symm

theorem combineFast_graph (f : ℝ → ℝ) {xs ys zs : List ℝ} (h : combineFast xs ys = .ok zs) :
    combineFast (graph f xs) (graph f ys) = .ok (graph f zs) := by
  unfold combineFast at h ⊢
  split at h
  · rename_i hl
    injection h with h
    rw [if_pos (by simpa [graph] using hl), graph_interleave, h]
  · cases h

/-- **C40.** Refining any of the adaptive interpolators by adding the incremental nodes gives exactly the
samples `(x, f x)` of the finer grid: none is lost, doubled or put in the wrong place. -/
theorem C40_cheb {a b : ℝ} (interp : List (ℝ × ℝ) → ℝ → ℝ) :
    InterpOK (chebInterp a b interp) (fun n => 2 * n - 1) 3 where
  grow n hn := by omega
  nonempty n hn := by
    constructor
    · simp only [chebInterp]; rw [cheb_eq (by omega)]; simp; omega
    · simp only [chebInterp, inc_eq]; simp; omega
  refine n f hn := combineFast_graph f (C39_combine (by omega) a b)

theorem C40_cheb_noL {a b : ℝ} (interp : List (ℝ × ℝ) → ℝ → ℝ) :
    InterpOK (chebNoLInterp a b interp) (fun n => 2 * n - 1) 3 where
  grow n hn := by omega
  nonempty n hn := by
    constructor
    · simp only [chebNoLInterp]; rw [cheb_eq (by omega)]
      intro h
      have := congrArg List.length h
      simp at this; omega
    · simp only [chebNoLInterp, inc_eq]; simp; omega
  refine n f hn := by
    apply combineFast_graph
    dsimp only [chebNoLInterp]
    have e1 : (cheb n a b).tail = (List.range (n - 1)).map fun i => nodeAt (2 * n - 1) a b (2 * i + 1 + 1) := by
      rw [cheb_eq (by omega)]
      apply List.ext_getElem (by simp)
      intro i h1 h2
      simp only [List.getElem_tail, List.getElem_map, List.getElem_range]
      rw [show 2 * i + 1 + 1 = 2 * (i + 1) by ring, nodeAt_double (by omega)]
    have e2 : (2 * n - 1 - 1) / 2 = n - 1 := by omega
    have e3 : (cheb (2 * n - 1) a b).tail
        = (List.range (n - 1 + (n - 1))).map fun i => nodeAt (2 * n - 1) a b (i + 1) := by
      rw [cheb_eq (by omega)]
      apply List.ext_getElem (by simp; omega)
      intro i h1 h2
      simp
    unfold combineFast
    rw [if_pos (by rw [e1, inc_eq]; simp; omega), e1, inc_eq, e2, e3]
    exact congrArg _ (interleave_range _ _ (fun i => nodeAt (2 * n - 1) a b (i + 1)) (.inl rfl))

theorem C40_cheb_noR {a b : ℝ} (interp : List (ℝ × ℝ) → ℝ → ℝ) :
    InterpOK (chebNoRInterp a b interp) (fun n => 2 * n - 1) 3 where
  grow n hn := by omega
  nonempty n hn := by
    constructor
    · simp only [chebNoRInterp]; rw [cheb_eq (by omega)]
      intro h
      have := congrArg List.length h
      simp at this; omega
    · simp only [chebNoRInterp, inc_eq]; simp; omega
  refine n f hn := by
    apply combineFast_graph
    dsimp only [chebNoRInterp]
    have e1 : (cheb n a b).dropLast = (List.range (n - 1)).map fun i => nodeAt (2 * n - 1) a b (2 * i) := by
      rw [cheb_eq (by omega)]
      apply List.ext_getElem (by simp)
      intro i h1 h2
      simp only [List.getElem_dropLast, List.getElem_map, List.getElem_range]
      rw [nodeAt_double (by omega)]
    have e2 : (2 * n - 1 - 1) / 2 = n - 1 := by omega
    have e3 : (cheb (2 * n - 1) a b).dropLast
        = (List.range (n - 1 + (n - 1))).map fun i => nodeAt (2 * n - 1) a b i := by
      rw [cheb_eq (by omega)]
      apply List.ext_getElem (by simp; omega)
      intro i h1 h2
      simp
    unfold combineFast
    rw [if_pos (by rw [e1, inc_eq]; simp; omega), e1, inc_eq, e2, e3]
    exact congrArg _ (interleave_range _ _ (fun i => nodeAt (2 * n - 1) a b i) (.inl rfl))

theorem C40_cheb1 {a b : ℝ} (hab : a < b) (interp : List (ℝ × ℝ) → ℝ → ℝ) :
    InterpOK (cheb1Interp a b interp) (fun n => 3 * n) 2 where
  grow n hn := by omega
  nonempty n hn := by
    constructor
    · simp only [cheb1Interp, cheb1_eq]; simp; omega
    · simp only [cheb1Interp, inc1_eq]
      intro h
      have : 0 ∈ (List.range (3 * n)).filter fun i => i % 3 ≠ 1 := by simp; omega
      rw [List.map_eq_nil_iff] at h
      rw [h] at this; simp at this
  refine n f hn := by
    dsimp only [cheb1Interp]
    unfold combineSort
    congr 1
    set r : ℝ × ℝ → ℝ × ℝ → Prop := fun p q => p.1 < q.1 ∨ (p.1 = q.1 ∧ p.2 ≤ q.2) with hr
    have hrl : ∀ p q, r p q ↔ toLex p ≤ toLex q := fun p q => (Prod.Lex.toLex_le_toLex).symm
    have : IsTrans _ r := ⟨fun p q s h1 h2 => (hrl _ _).2 (((hrl _ _).1 h1).trans ((hrl _ _).1 h2))⟩
    have : Std.Total r := ⟨fun p q => by rw [hrl, hrl]; exact le_total _ _⟩
    have : Std.Antisymm r := ⟨fun p q h1 h2 => toLex.injective (((hrl _ _).1 h1).antisymm ((hrl _ _).1 h2))⟩
    refine List.Perm.eq_of_pairwise' (r := r) (List.pairwise_insertionSort r _) ?_ ?_
    · unfold graph
      rw [List.pairwise_map]
      exact (C39_cheb1_grid (3 * n) hab).sorted.imp fun h => .inl h
    · refine (List.perm_insertionSort r _).trans ?_
      unfold graph
      rw [← List.map_append]
      exact (cheb1_perm (by omega) a b).map _

/-- the logarithmic interpolator keeps its samples too (its grid is unsorted, see C39) -/
theorem nodeAtLog_double {n : ℕ} (hn : 2 ≤ n) (a b : ℝ) (k : ℕ) :
    nodeAtLog (2 * n - 1) a b (2 * k) = nodeAtLog n a b k := by
  unfold nodeAtLog
  congr 1
  have h : (n : ℝ) - 1 ≠ 0 := by
    have : (2 : ℝ) ≤ n := by exact_mod_cast hn
    linarith
  rw [Nat.cast_sub (by omega)]
  push_cast
  rw [show (2 * (n : ℝ) - 1 - 1) = 2 * ((n : ℝ) - 1) by ring]
  field_simp

theorem C40_log {a b : ℝ} (interp : List (ℝ × ℝ) → ℝ → ℝ) :
    InterpOK (logInterp a b interp) (fun n => 2 * n - 1) 3 where
  grow n hn := by omega
  nonempty n hn := by
    constructor
    · intro h
      have := congrArg List.length h
      simp [logInterp] at this; omega
    · simp only [logInterp, incLog]; simp; omega
  refine n f hn := by
    apply combineFast_graph
    dsimp only [logInterp]
    set h : ℕ → ℝ := fun k => if k = 2 * n - 1 - 1 then b else if k = 0 then a else nodeAtLog (2 * n - 1) a b k with hh
    have e1 : (((List.range n).map (nodeAtLog n a b)).set 0 a).set (n - 1) b = (List.range n).map fun i => h (2 * i) := by
      apply List.ext_getElem (by simp)
      intro i h1 h2
      simp only [List.getElem_set, List.getElem_map, List.getElem_range, hh]
      simp only [List.length_map, List.length_range] at h2
      split_ifs <;> first | rfl | omega | exact (nodeAtLog_double (by omega) a b i).symm
    have e2 : (2 * n - 1 - 1) / 2 = n - 1 := by omega
    have e4 : incLog (2 * n - 1) a b = (List.range (n - 1)).map fun i => h (2 * i + 1) := by
      unfold incLog
      rw [e2]
      apply List.map_congr_left
      intro i hi
      rw [List.mem_range] at hi
      simp only [hh]
      rw [if_neg (by omega), if_neg (by omega)]
      rfl
    have e3 : (((List.range (2 * n - 1)).map (nodeAtLog (2 * n - 1) a b)).set 0 a).set (2 * n - 1 - 1) b
        = (List.range (n + (n - 1))).map h := by
      apply List.ext_getElem (by simp; omega)
      intro i h1 h2
      simp only [List.getElem_set, List.getElem_map, List.getElem_range, hh]
      by_cases hi : i = 2 * n - 1 - 1
      · rw [if_pos hi.symm, if_pos hi]
      · rw [if_neg (Ne.symm hi), if_neg hi]
        by_cases h0 : i = 0
        · rw [if_pos h0.symm, if_pos h0]
        · rw [if_neg (Ne.symm h0), if_neg h0]
    unfold combineFast
    rw [e1, e4, if_pos (by simp; omega), e3]
    exact congrArg _ (interleave_range _ _ h (by omega))

/-- the grid of the integrator (integration.py:136-147), with any coefficients of the right number -/
noncomputable def chebGrid (a b : ℝ) (coef : ℕ → List ℝ) : Grid ℝ := ⟨fun n => cheb n a b, fun n => inc n a b, coef⟩

/-- Refining the integrator keeps the samples too. -/
theorem C40_integrator {a b : ℝ} (coef : ℕ → List ℝ) (hc : ∀ n, 3 ≤ n → (coef n).length = n - 2) :
    GridOK (chebGrid a b coef) where
  refine n hn := by
    dsimp only [chebGrid]
    rw [cheb_eq (by omega), cheb_eq (by omega), inner_range, inner_range, inc_eq]
    have e2 : (2 * n - 1 - 1) / 2 = n - 1 := by omega
    have e1 : (List.range (n - 2)).map (fun i => nodeAt n a b (i + 1))
        = (List.range (n - 2)).map fun i => nodeAt (2 * n - 1) a b (2 * i + 1 + 1) := by
      apply List.map_congr_left
      intro i _
      rw [show 2 * i + 1 + 1 = 2 * (i + 1) by ring, nodeAt_double (by omega)]
    rw [e1, e2]
    have := interleave_range (n - 1) (n - 2) (fun i => nodeAt (2 * n - 1) a b (i + 1)) (by omega)
    rw [show n - 1 + (n - 2) = 2 * n - 1 - 2 by omega] at this
    exact this
  lenInc n hn := by simp only [chebGrid, inc_eq]; simp; omega
  lenCheb n hn := by simp only [chebGrid]; rw [cheb_eq (by omega), inner_range]; simp
  lenCoef n hn := hc n hn

/-- Hence C37 applies to the interpolators of the package, here with the default node limit 100: the result has
the true function values at its Chebyshev nodes. -/
theorem C40_adaptive_samples (p : Par ℝ) {a b : ℝ} (interp : List (ℝ × ℝ) → ℝ → ℝ) (f : ℝ → ℝ) (maxn : ℕ)
    (hm : 3 ≤ maxn) : ∃ s e, adaptiveInterp p (chebInterp a b interp) (fun n => 2 * n - 1) 3 f maxn maxn = .ok (s, e) ∧
      s.pts = (cheb s.n a b).map fun x => (x, f x) := by
  obtain ⟨s, e, h, hr⟩ := C37_interpolate p _ _ 3 (C40_cheb (a := a) (b := b) interp) f maxn hm maxn (by omega)
  exact ⟨s, e, h, hr.1⟩

/-- the integrator with all coefficients equal to one has a consistent grid -/
example : GridOK (chebGrid 0 1 fun n => List.replicate (n - 2) 1) := C40_integrator _ fun n _ => by simp

end Pacal
