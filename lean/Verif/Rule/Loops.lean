import Verif.Rule.Exact

/-! Helper lemmas for C64: what the loops compute. -/

namespace Pacal
namespace Rule
open Mon Nodes

/-- Clenshaw–Curtis estimate with `n` nodes -/
noncomputable def estC (f : ℝ → ℝ) (a b : ℝ) (n : ℕ) : ℝ := Q (n - 1) (uC (n - 1)) a b f

/-- Fejér estimate with `n - 2` nodes -/
noncomputable def estF (f : ℝ → ℝ) (a b : ℝ) (n : ℕ) : ℝ := Q (n - 1) (uF (n - 1)) a b f

/-- number of nodes in step `j` of `integrate_clenshaw`: 3, 5, 9, … -/
def stepC (j : ℕ) : ℕ := 2 ^ (j + 1) + 1

theorem stepC_succ (j : ℕ) : 2 * stepC j - 1 = stepC (j + 1) := by
  unfold stepC; rw [pow_succ (n := j + 1)]; omega

theorem stepC_ge (j : ℕ) : 3 ≤ stepC j := by
  unfold stepC
  have := Nat.one_le_two_pow (n := j)
  rw [pow_succ]
  omega

theorem combine_cheb {n : ℕ} (hn : 3 ≤ n) (f : ℝ → ℝ) (a b : ℝ) :
    combineFast (cheb n a b) (inc (2 * n - 1) a b) = .ok (cheb (2 * n - 1) a b) ∧
    combineFast ((cheb n a b).map f) ((inc (2 * n - 1) a b).map f) = .ok ((cheb (2 * n - 1) a b).map f) := by
  have e1 : cheb n a b = (List.range n).map fun i => nodeAt (2 * n - 1) a b (2 * i) := by
    rw [cheb_eq (by omega)]
    apply List.map_congr_left
    intro i _
    rw [nodeAt_double (by omega)]
  have e2 : (2 * n - 1 - 1) / 2 = n - 1 := by omega
  have h : interleave (cheb n a b) (inc (2 * n - 1) a b) = cheb (2 * n - 1) a b := by
    rw [e1, inc_eq, e2, cheb_eq (n := 2 * n - 1) (by omega)]
    have := interleave_range n (n - 1) (fun i => nodeAt (2 * n - 1) a b i) (by omega)
    rw [show n + (n - 1) = 2 * n - 1 by omega] at this
    exact this
  have hl : (cheb n a b).length = (inc (2 * n - 1) a b).length + 1 := by
    rw [e1, inc_eq, e2]; simp; omega
  constructor
  · unfold combineFast
    rw [if_pos (.inr hl), h]
  · unfold combineFast
    rw [if_pos (by rw [List.length_map, List.length_map]; exact .inr hl), ← interleave_map, h]

theorem dot_clenshaw {n : ℕ} (hn : 3 ≤ n) (f : ℝ → ℝ) (a b : ℝ) : ∃ c d, clenshaw n = .ok c ∧
    dot ((cheb n a b).map f) c = .ok d ∧ d * (1 / 2) * (b - a) = estC f a b n := by
  obtain ⟨M, rfl⟩ : ∃ M, n = M + 1 := ⟨n - 1, by omega⟩
  have hM : 2 ≤ M := by omega
  refine ⟨_, (List.zipWith (· * ·) ((cheb (M + 1) a b).map f) ((List.range (M + 1)).map (wt M (uC M)))).sum,
    clenshaw_ok hM, ?_, ?_⟩
  · unfold dot
    rw [if_pos (by rw [cheb_nd hM]; simp)]
  · have := apply_clenshaw hM f a b
    unfold apply at this
    unfold estC
    rw [Nat.add_sub_cancel, ← this]
    rw [List.zipWith_map_left]
    ring

theorem dot_fejer {n : ℕ} (hn : 3 ≤ n) (f : ℝ → ℝ) (a b : ℝ) (c : List ℝ) (hc : fejer2 n = .ok c) : ∃ d,
    dot ((inner (cheb n a b)).map f) c = .ok d ∧ d * (b - a) / 2 = estF f a b n := by
  obtain ⟨M, rfl⟩ : ∃ M, n = M + 1 := ⟨n - 1, by omega⟩
  have hM : 2 ≤ M := by omega
  rw [fejer2_ok hM] at hc
  cases hc
  refine ⟨(List.zipWith (· * ·) ((inner (cheb (M + 1) a b)).map f)
    ((List.range (M - 1)).map fun k => wt M (uF M) (k + 1))).sum, ?_, ?_⟩
  · unfold dot
    rw [if_pos (by rw [cheb_nd hM, inner_range]; simp)]
  · have := apply_fejer hM f a b
    unfold apply at this
    unfold estF
    rw [Nat.add_sub_cancel, ← this]
    rw [List.zipWith_map_left]
    ring

theorem fejer2_some {n : ℕ} (hn : 3 ≤ n) : ∃ c, fejer2 n = .ok c ∧ c.length = n - 2 := by
  obtain ⟨M, rfl⟩ : ∃ M, n = M + 1 := ⟨n - 1, by omega⟩
  exact ⟨_, fejer2_ok (by omega), by simp⟩

theorem fejerGrid_ok (a b : ℝ) : GridOK (fejerGrid a b) := by
  refine C40_integrator (a := a) (b := b) (coefOf fejer2) fun n hn => ?_
  obtain ⟨c, hc, hl⟩ := fejer2_some hn
  unfold coefOf
  rw [hc]
  exact hl

theorem quad_fejer {n : ℕ} (hn : 3 ≤ n) (f : ℝ → ℝ) (a b : ℝ) : quad (fejerGrid a b) f a b n = estF f a b n := by
  obtain ⟨M, rfl⟩ : ∃ M, n = M + 1 := ⟨n - 1, by omega⟩
  have hM : 2 ≤ M := by omega
  have := apply_fejer hM f a b
  unfold apply at this
  unfold estF quad fejerGrid
  rw [Nat.add_sub_cancel, ← this]
  have : coefOf fejer2 (M + 1) = (List.range (M - 1)).map fun k => wt M (uF M) (k + 1) := by
    unfold coefOf; rw [fejer2_ok hM]
  dsimp only
  rw [this, List.zipWith_map_left]
  ring

/-! ### `integrate_clenshaw` -/

/-- the local variables before step `j` -/
structure CInv (f : ℝ → ℝ) (a b : ℝ) (j : ℕ) (s : CState) : Prop where
  nodes : s.nodes = match j with
    | 0 => none
    | j + 1 => some (cheb (stepC j) a b, (cheb (stepC j) a b).map f)
  prev : s.prev = match j with
    | 0 => none
    | j + 1 => some (estC f a b (stepC j))
  val : s.val = s.prev
  err : s.err = match j with
    | 0 => none
    | 1 => none
    | j + 2 => some |estC f a b (stepC (j + 1)) - estC f a b (stepC j)|
  good : s.cm.lastGood ≤ s.cm.recs.length

theorem clenshawNodes_ok {f : ℝ → ℝ} {a b : ℝ} {j : ℕ} {s : CState} (h : CInv f a b j s) :
    clenshawNodes f a b (stepC j) s.nodes = .ok (cheb (stepC j) a b, (cheb (stepC j) a b).map f) := by
  rw [h.nodes]
  cases j with
  | zero => rfl
  | succ j =>
    obtain ⟨h1, h2⟩ := combine_cheb (stepC_ge j) f a b
    rw [stepC_succ] at h1 h2
    simp only [clenshawNodes, h1, h2]
    rfl

/-- what the loop ends with: the estimate of its last step `j`, and the number of nodes -/
structure CEnd (f : ℝ → ℝ) (a b : ℝ) (maxn j n : ℕ) (s : CState) : Prop where
  nodes : s.nodes ≠ none
  val : s.val = some (estC f a b (stepC j))
  err : 1 ≤ j → s.err = some |estC f a b (stepC j) - estC f a b (stepC (j - 1))|
  err0 : j = 0 → s.err = none
  le : stepC j ≤ maxn
  n_eq : (n = stepC j ∧ 1 ≤ j) ∨ (n = stepC (j + 1) ∧ maxn < n)

theorem clenshawLoop_spec (p : Par ℝ) (f : ℝ → ℝ) (a b : ℝ) (maxn : ℕ) :
    ∀ (fuel j : ℕ) (s : CState), CInv f a b j s → (∀ i < j, stepC i ≤ maxn) → (j = 0 → 3 ≤ maxn) →
      maxn < stepC j + fuel →
    ∃ n s' j', clenshawLoop p f a b maxn fuel (stepC j) s = .ok (n, s') ∧ CEnd f a b maxn j' n s' := by
  intro fuel
  have stop : ∀ (j : ℕ) (s : CState), CInv f a b j s → (∀ i < j, stepC i ≤ maxn) → (j = 0 → 3 ≤ maxn) →
      ¬ stepC j ≤ maxn → ∃ j', CEnd f a b maxn j' (stepC j) s := by
    intro j s hinv hle h0 hn
    cases j with
    | zero =>
      exact (hn (by have := h0 rfl; unfold stepC; omega)).elim
    | succ j =>
      refine ⟨j, ⟨?_, ?_, ?_, ?_, hle j (by omega), .inr ⟨rfl, by omega⟩⟩⟩
      · rw [hinv.nodes]; simp
      · rw [hinv.val, hinv.prev]
      · intro h1
        obtain ⟨i, rfl⟩ : ∃ i, j = i + 1 := ⟨j - 1, by omega⟩
        exact hinv.err
      · rintro rfl; exact hinv.err
  induction fuel with
  | zero =>
    intro j s hinv hle h0 hf
    obtain ⟨j', hj'⟩ := stop j s hinv hle h0 (by omega)
    refine ⟨_, s, j', ?_, hj'⟩
    unfold clenshawLoop
    rw [if_neg (by omega)]
  | succ fuel ih =>
    intro j s hinv hle h0 hf
    by_cases hn : stepC j ≤ maxn
    · obtain ⟨c, d, hc, hd, hq⟩ := dot_clenshaw (stepC_ge j) f a b
      have hle' : ∀ i < j + 1, stepC i ≤ maxn := by
        intro i hi
        rcases Nat.lt_succ_iff_lt_or_eq.1 hi with h | rfl
        · exact hle i h
        · exact hn
      have hfuel : maxn < stepC (j + 1) + fuel := by
        rw [← stepC_succ]
        have := stepC_ge j
        omega
      unfold clenshawLoop
      rw [if_pos hn]
      simp only [hc, clenshawNodes_ok hinv, hd, Except.bind, bind, stepC_succ, hq]
      cases j with
      | zero =>
        have hp : s.prev = none := hinv.prev
        rw [hp]
        dsimp only
        refine ih 1 _ ⟨rfl, rfl, rfl, ?_, hinv.good⟩ hle' (by omega) hfuel
        exact hinv.err
      | succ j =>
        have hp : s.prev = some (estC f a b (stepC j)) := hinv.prev
        rw [hp]
        dsimp only
        obtain ⟨cm, ans, ht, hr, hg', _⟩ := test_ok p s.cm
          ⟨|estC f a b (stepC (j + 1)) - estC f a b (stepC j)|, estC f a b (stepC (j + 1)), ()⟩ hinv.good
        dsimp only at ht
        rw [ht]
        dsimp only
        by_cases hs : ans.stop = true
        · rw [if_pos hs]
          exact ⟨_, _, j + 1, rfl, ⟨by simp, rfl, fun _ => rfl, by omega, hn, .inl ⟨rfl, by omega⟩⟩⟩
        · rw [if_neg hs]
          exact ih (j + 2) _ ⟨rfl, rfl, rfl, rfl, hg'⟩ hle' (by omega) hfuel
    · obtain ⟨j', hj'⟩ := stop j s hinv hle h0 hn
      refine ⟨_, s, j', ?_, hj'⟩
      unfold clenshawLoop
      rw [if_neg hn]

theorem cInv_start (f : ℝ → ℝ) (a b : ℝ) : CInv f a b 0 {} := ⟨rfl, rfl, rfl, rfl, le_rfl⟩

/-! ### `integrate_fejer2_vector` -/

/-- the estimates of all components -/
noncomputable def estV (fv : List (ℝ → ℝ)) (a b : ℝ) (n : ℕ) : List ℝ := fv.map fun f => estF f a b n

/-- the largest change of a component -/
structure IsChange (x y : List ℝ) (e : ℝ) : Prop where
  ge : ∀ i (h : i < x.length) (h' : i < y.length), |x[i] - y[i]| ≤ e
  att : ∃ i, ∃ (h : i < x.length) (h' : i < y.length), e = |x[i] - y[i]|

/-- the local variables before step `j` -/
structure VInv (fv : List (ℝ → ℝ)) (a b : ℝ) (j : ℕ) (s : VState) : Prop where
  nodes : s.nodes = match j with
    | 0 => none
    | j + 1 => some (inner (cheb (stepN j) a b), rows fv (inner (cheb (stepN j) a b)))
  prev : s.prev = match j with
    | 0 => none
    | j + 1 => some (estV fv a b (stepN j))
  val : s.val = s.prev
  err : match j with
    | 0 => s.err = none
    | 1 => s.err = none
    | j + 2 => ∃ e, s.err = some e ∧ IsChange (estV fv a b (stepN (j + 1))) (estV fv a b (stepN j)) e
  good : s.cm.lastGood ≤ s.cm.recs.length

theorem mapM_ok {α β : Type*} (g : α → Except PyErr β) (h : α → β) :
    ∀ xs : List α, (∀ x ∈ xs, g x = .ok (h x)) → xs.mapM g = .ok (xs.map h)
  | [], _ => rfl
  | x :: xs, H => by
    rw [List.mapM_cons, H x (by simp), mapM_ok g h xs fun y hy => H y (by simp [hy])]
    rfl

theorem vectorNodes_ok {fv : List (ℝ → ℝ)} {a b : ℝ} {j : ℕ} {s : VState} (h : VInv fv a b j s) :
    vectorNodes fv a b (stepN j) s.nodes
      = .ok (inner (cheb (stepN j) a b), rows fv (inner (cheb (stepN j) a b))) := by
  rw [h.nodes]
  cases j with
  | zero => rfl
  | succ j =>
    have hg := fejerGrid_ok a b
    have h3 : 3 ≤ stepN j := by have := stepN_ge j; omega
    have l1 := hg.lenInc _ h3
    have l2 := hg.lenCheb _ h3
    have hr := hg.refine _ h3
    rw [stepN_succ] at l1 hr
    simp only [fejerGrid] at l1 l2 hr
    have c1 : combineFast (inc (stepN (j + 1)) a b) (inner (cheb (stepN j) a b))
        = .ok (inner (cheb (stepN (j + 1)) a b)) := by
      unfold combineFast
      rw [if_pos (by rw [l1, l2]; omega), hr]
    have c2 : ∀ f : ℝ → ℝ, combineFast ((inc (stepN (j + 1)) a b).map f) ((inner (cheb (stepN j) a b)).map f)
        = .ok ((inner (cheb (stepN (j + 1)) a b)).map f) := by
      intro f
      unfold combineFast
      rw [if_pos (by rw [List.length_map, List.length_map, l1, l2]; omega), ← interleave_map, hr]
    have hz : List.zip (rows fv (inc (stepN (j + 1)) a b)) (rows fv (inner (cheb (stepN j) a b)))
        = fv.map fun f => ((inc (stepN (j + 1)) a b).map f, (inner (cheb (stepN j) a b)).map f) := by
      unfold rows
      apply List.ext_getElem <;> simp
    have c3 : (List.zip (rows fv (inc (stepN (j + 1)) a b)) (rows fv (inner (cheb (stepN j) a b)))).mapM
        (fun q => combineFast q.1 q.2) = .ok (rows fv (inner (cheb (stepN (j + 1)) a b))) := by
      rw [hz, List.mapM_map]
      exact mapM_ok _ (fun f => (inner (cheb (stepN (j + 1)) a b)).map f) fv fun f _ => c2 f
    simp only [vectorNodes, c1, c3]
    rfl

theorem dots_ok {n : ℕ} (hn : 3 ≤ n) (fv : List (ℝ → ℝ)) (a b : ℝ) : ∃ c ds, fejer2 n = .ok c ∧
    (rows fv (inner (cheb n a b))).mapM (fun row => dot row c) = .ok ds ∧
    (ds.map fun d => d * (b - a) / 2) = estV fv a b n := by
  obtain ⟨c, hc, _⟩ := fejer2_some hn
  choose d hd hq using fun f => dot_fejer hn f a b c hc
  refine ⟨c, fv.map d, hc, ?_, ?_⟩
  · unfold rows
    rw [List.mapM_map]
    exact mapM_ok _ _ fv fun f _ => hd f
  · unfold estV
    rw [List.map_map]
    exact List.map_congr_left fun f _ => hq f

theorem change_ok {x y : List ℝ} (hl : x.length = y.length) (hne : x ≠ []) : ∃ e,
    arrMax ((List.zipWith (· - ·) x y).map (|·|)) = .ok e ∧ IsChange x y e := by
  have h0 : 0 < x.length := List.length_pos_iff.2 hne
  obtain ⟨e, he, h, hle⟩ := arrMax_ok (xs := (List.zipWith (· - ·) x y).map (|·|)) (by
    intro h
    have := congrArg List.length h
    rw [List.length_map, List.length_zipWith, ← hl, min_self, List.length_nil] at this
    omega)
  refine ⟨e, h, ⟨fun i h1 h2 => hle _ ?_, ?_⟩⟩
  · rw [List.mem_map]
    exact ⟨x[i] - y[i], List.mem_iff_getElem.2 ⟨i, by simp; omega, by simp⟩, rfl⟩
  · rw [List.mem_map] at he
    obtain ⟨z, hz, rfl⟩ := he
    obtain ⟨i, hi, rfl⟩ := List.mem_iff_getElem.1 hz
    simp at hi
    exact ⟨i, hi.1, hi.2, by simp⟩

/-- what the loop ends with -/
structure VEnd (fv : List (ℝ → ℝ)) (a b : ℝ) (maxn j : ℕ) (s : VState) : Prop where
  val : s.val = some (estV fv a b (stepN (j + 1)))
  err : ∃ e, s.err = some e ∧ IsChange (estV fv a b (stepN (j + 1))) (estV fv a b (stepN j)) e
  le : stepN (j + 1) ≤ maxn

theorem vectorLoop_spec (p : Par ℝ) {fv : List (ℝ → ℝ)} (hne : fv ≠ []) (a b : ℝ) {maxn : ℕ} (hm : 129 ≤ maxn) :
    ∀ (fuel j : ℕ) (s : VState), VInv fv a b j s → (∀ i < j, stepN i ≤ maxn) → maxn < stepN j + fuel →
    ∃ s' j', vectorLoop p fv a b maxn fuel (stepN j) s = .ok s' ∧ VEnd fv a b maxn j' s' := by
  intro fuel
  have stop : ∀ (j : ℕ) (s : VState), VInv fv a b j s → (∀ i < j, stepN i ≤ maxn) →
      ¬ stepN j ≤ maxn → ∃ j', VEnd fv a b maxn j' s := by
    intro j s hinv hle hn
    match j, hinv, hle, hn with
    | 0, _, _, hn => exact (hn (by unfold stepN; omega)).elim
    | 1, _, _, hn => exact (hn (by unfold stepN; omega)).elim
    | j + 2, hinv, hle, _ => exact ⟨j, ⟨by rw [hinv.val, hinv.prev], hinv.err, hle _ (by omega)⟩⟩
  induction fuel with
  | zero =>
    intro j s hinv hle hf
    obtain ⟨j', hj'⟩ := stop j s hinv hle (by omega)
    refine ⟨s, j', ?_, hj'⟩
    unfold vectorLoop
    rw [if_neg (by omega)]
  | succ fuel ih =>
    intro j s hinv hle hf
    by_cases hn : stepN j ≤ maxn
    · obtain ⟨c, ds, hc, hd, hq⟩ := dots_ok (n := stepN j) (by have := stepN_ge j; omega) fv a b
      have hle' : ∀ i < j + 1, stepN i ≤ maxn := by
        intro i hi
        rcases Nat.lt_succ_iff_lt_or_eq.1 hi with h | rfl
        · exact hle i h
        · exact hn
      have hfuel : maxn < stepN (j + 1) + fuel := by
        rw [← stepN_succ]
        have := stepN_ge j
        omega
      unfold vectorLoop
      rw [if_pos hn]
      simp only [hc, vectorNodes_ok hinv, hd, Except.bind, bind, stepN_succ, hq]
      match j, hinv, hle', hfuel, hn with
      | 0, hinv, hle', hfuel, _ =>
        have hp : s.prev = none := hinv.prev
        rw [hp]
        dsimp only
        exact ih 1 _ ⟨rfl, rfl, rfl, hinv.err, hinv.good⟩ hle' hfuel
      | j + 1, hinv, hle', hfuel, hn =>
        have hp : s.prev = some (estV fv a b (stepN j)) := hinv.prev
        rw [hp]
        dsimp only
        obtain ⟨e, he, hch⟩ := change_ok (x := estV fv a b (stepN (j + 1))) (y := estV fv a b (stepN j))
          (by simp [estV]) (by simpa [estV] using hne)
        rw [he]
        dsimp only
        obtain ⟨cm, ans, ht, hr, hg', _⟩ := test_ok p s.cm
          ⟨e, ((estV fv a b (stepN (j + 1))).map (|·|)).sum / (estV fv a b (stepN (j + 1))).length, ()⟩ hinv.good
        dsimp only at ht
        rw [ht]
        dsimp only
        by_cases hs : ans.stop = true
        · rw [if_pos hs]
          exact ⟨_, j, rfl, ⟨rfl, ⟨e, rfl, hch⟩, hn⟩⟩
        · rw [if_neg hs]
          exact ih (j + 2) _ ⟨rfl, rfl, rfl, ⟨e, rfl, hch⟩, hg'⟩ hle' hfuel
    · obtain ⟨j', hj'⟩ := stop j s hinv hle hn
      refine ⟨s, j', ?_, hj'⟩
      unfold vectorLoop
      rw [if_neg hn]

theorem vInv_start (fv : List (ℝ → ℝ)) (a b : ℝ) : VInv fv a b 0 {} := ⟨rfl, rfl, rfl, rfl, le_rfl⟩

end Rule
end Pacal
