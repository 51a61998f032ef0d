import Verif.Util.PropsMonitor
import Mathlib.Algebra.Order.Ring.Abs

/-!
# Property C37: adaptive loops terminate and return a real estimate
-/

set_option linter.unusedSectionVars false

namespace Pacal
open Mon
variable {K E : Type*} [Field K] [LinearOrder K] [IsStrictOrderedRing K]

/-- number of nodes in refinement step `j` of the integrator: 65, 129, 257, … -/
def stepN (j : ℕ) : ℕ := 64 * 2 ^ j + 1

/-- The quadrature rule with `n` nodes: the weighted sum of the values of `f` at the inner Chebyshev points. -/
def quad (g : Grid K) (f : K → K) (a b : K) (n : ℕ) : K :=
  (List.zipWith (· * ·) ((inner (g.cheb n)).map f) (g.coef n)).sum * (b - a) / 2

/-- The node families fit together: the new nodes interleaved with the old ones are the nodes of the next
step, and there is one coefficient per node. (Proved for the Chebyshev points in property C40.) -/
structure GridOK (g : Grid K) : Prop where
  refine : ∀ n, 3 ≤ n → interleave (g.inc (2 * n - 1)) (inner (g.cheb n)) = inner (g.cheb (2 * n - 1))
  lenInc : ∀ n, 3 ≤ n → (g.inc (2 * n - 1)).length = n - 1
  lenCheb : ∀ n, 3 ≤ n → (inner (g.cheb n)).length = n - 2
  lenCoef : ∀ n, 3 ≤ n → (g.coef n).length = n - 2

namespace Mon

theorem interleave_map {α β : Type*} (f : α → β) : ∀ (xs ys : List α),
    (interleave xs ys).map f = interleave (xs.map f) (ys.map f)
  | [], ys => by simp [interleave]
  | x :: xs, ys => by
    rw [interleave, List.map_cons, List.map_cons, interleave, interleave_map f ys xs]
termination_by xs ys => xs.length + ys.length

/-- a test after an addition always gives an answer, and keeps `lastGood` in range -/
theorem test_ok (p : Par K) (s : State K E) (r : Rec K E) (h : s.lastGood ≤ s.recs.length) :
    ∃ s' a, (s.add r.ae r.y r.e).test p = .ok (s', a) ∧ s'.recs = s.recs ++ [r] ∧
      s'.lastGood ≤ s'.recs.length ∧ (a = .converged → s'.converged = true ∧ WithinTol p r) := by
  rw [test_add]
  by_cases hw : WithinTol p r
  · rw [if_pos hw]
    exact ⟨_, _, rfl, rfl, by simp [State.add]; omega, fun _ => ⟨rfl, hw⟩⟩
  · rw [if_neg hw]
    have : s.lastGood < (s.recs ++ [r]).length := by simp; omega
    rw [List.getElem?_eq_getElem this]
    have hu : ∀ good, (upd p s r good).recs = s.recs ++ [r] ∧
        (upd p s r good).lastGood ≤ (upd p s r good).recs.length := by
      intro good
      unfold upd
      split
      · simp [State.add]
      · simp [State.add]; omega
    dsimp only
    split
    · exact ⟨_, _, rfl, (hu _).1, (hu _).2, by simp⟩
    · exact ⟨_, _, rfl, (hu _).1, (hu _).2, by simp⟩

theorem stepN_succ (j : ℕ) : 2 * stepN j - 1 = stepN (j + 1) := by
  unfold stepN; rw [pow_succ]; omega

theorem stepN_ge (j : ℕ) : 65 ≤ stepN j := by
  unfold stepN
  have := Nat.one_le_two_pow (n := j)
  omega

/-- the estimates made up to step `j`, and the records of the monitor -/
structure Progress (g : Grid K) (f : K → K) (a b : K) (j : ℕ) (s : FState K) : Prop where
  ests : s.ests = (List.range j).map fun i => (stepN i, quad g f a b (stepN i))
  recs : s.cm.recs = (List.range (j - 1)).map fun i =>
    ⟨|quad g f a b (stepN (i + 1)) - quad g f a b (stepN i)|, quad g f a b (stepN (i + 1)), ()⟩

/-- state before step `j` -/
structure FInv (g : Grid K) (f : K → K) (a b : K) (j : ℕ) (s : FState K) : Prop extends
    Progress g f a b j s where
  nodes : s.nodes = match j with
    | 0 => none
    | j + 1 => some (inner (g.cheb (stepN j)), (inner (g.cheb (stepN j))).map f)
  prev : s.prev = match j with
    | 0 => none
    | j + 1 => some (quad g f a b (stepN j))
  good : s.cm.lastGood ≤ s.cm.recs.length

theorem fejerNodes_ok {g : Grid K} (hg : GridOK g) {f : K → K} {a b : K} {j : ℕ} {s : FState K}
    (h : FInv g f a b j s) : fejerNodes g f (stepN j) s.nodes
      = .ok (inner (g.cheb (stepN j)), (inner (g.cheb (stepN j))).map f) := by
  rw [h.nodes]
  cases j with
  | zero => rfl
  | succ j =>
    have h3 : 3 ≤ stepN j := by have := stepN_ge j; omega
    have l1 := hg.lenInc _ h3
    have l2 := hg.lenCheb _ h3
    have hr := hg.refine _ h3
    rw [stepN_succ] at l1 hr
    have c1 : combineFast (g.inc (stepN (j + 1))) (inner (g.cheb (stepN j)))
        = .ok (inner (g.cheb (stepN (j + 1)))) := by
      unfold combineFast
      rw [if_pos (by rw [l1, l2]; omega), hr]
    have c2 : combineFast ((g.inc (stepN (j + 1))).map f) ((inner (g.cheb (stepN j))).map f)
        = .ok ((inner (g.cheb (stepN (j + 1)))).map f) := by
      unfold combineFast
      rw [if_pos (by rw [List.length_map, List.length_map, l1, l2]; omega), ← interleave_map, hr]
    simp only [fejerNodes, c1, c2]
    rfl

theorem dot_ok {g : Grid K} (hg : GridOK g) (f : K → K) (a b : K) (j : ℕ) :
    ∃ d, dot ((inner (g.cheb (stepN j))).map f) (g.coef (stepN j)) = .ok d ∧
      d * (b - a) / 2 = quad g f a b (stepN j) := by
  have h3 : 3 ≤ stepN j := by have := stepN_ge j; omega
  refine ⟨_, ?_, rfl⟩
  unfold dot
  rw [if_pos (by rw [List.length_map, hg.lenCheb _ h3, hg.lenCoef _ h3])]

theorem fejerLoop_spec (p : Par K) {g : Grid K} (hg : GridOK g) (f : K → K) (a b : K) (maxn : ℕ) :
    ∀ (fuel j : ℕ) (s : FState K), FInv g f a b j s → (∀ i < j, stepN i ≤ maxn) → maxn < stepN j + fuel →
    ∃ s' j', fejerLoop p g f a b maxn fuel (stepN j) s = .ok s' ∧ Progress g f a b j' s' ∧
      (∀ i < j', stepN i ≤ maxn) ∧ (j' < 2 → maxn < stepN j') := by
  intro fuel
  induction fuel with
  | zero =>
    intro j s hinv hle hf
    refine ⟨s, j, ?_, hinv.toProgress, hle, fun _ => by omega⟩
    unfold fejerLoop
    rw [if_neg (by omega)]
  | succ fuel ih =>
    intro j s hinv hle hf
    by_cases hn : stepN j ≤ maxn
    · obtain ⟨d, hd, hq⟩ := dot_ok hg f a b j
      have hle' : ∀ i < j + 1, stepN i ≤ maxn := by
        intro i hi
        rcases Nat.lt_succ_iff_lt_or_eq.1 hi with h | rfl
        · exact hle i h
        · exact hn
      have hests : s.ests ++ [(stepN j, d * (b - a) / 2)]
          = (List.range (j + 1)).map fun i => (stepN i, quad g f a b (stepN i)) := by
        rw [hinv.ests, List.range_succ, List.map_append, hq]; rfl
      have hfuel : maxn < stepN (j + 1) + fuel := by
        rw [← stepN_succ]
        have := stepN_ge j
        omega
      unfold fejerLoop
      rw [if_pos hn]
      simp only [fejerNodes_ok hg hinv, hd, Except.bind, bind, stepN_succ]
      cases j with
      | zero =>
        have hp : s.prev = none := hinv.prev
        rw [hp]
        dsimp only
        refine ih 1 _ ⟨⟨hests, ?_⟩, rfl, congrArg some hq, ?_⟩ hle' hfuel
        · simpa using hinv.recs
        · exact hinv.good
      | succ j =>
        have hp : s.prev = some (quad g f a b (stepN j)) := hinv.prev
        rw [hp]
        dsimp only
        rw [hq]
        rw [hq] at hests
        obtain ⟨cm, ans, ht, hr, hg', _⟩ := test_ok p s.cm
          ⟨|quad g f a b (stepN (j + 1)) - quad g f a b (stepN j)|, quad g f a b (stepN (j + 1)), ()⟩ hinv.good
        have hrecs : cm.recs = (List.range (j + 1)).map fun i =>
            ⟨|quad g f a b (stepN (i + 1)) - quad g f a b (stepN i)|, quad g f a b (stepN (i + 1)), ()⟩ := by
          rw [hr, hinv.recs, Nat.add_sub_cancel, List.range_succ, List.map_append]; rfl
        dsimp only at ht
        rw [ht]
        dsimp only
        by_cases hs : ans.stop = true
        · rw [if_pos hs]
          exact ⟨_, j + 2, rfl, ⟨hests, hrecs⟩, hle', by omega⟩
        · rw [if_neg hs]
          exact ih (j + 2) _ ⟨⟨hests, hrecs⟩, rfl, rfl, hg'⟩ hle' hfuel
    · refine ⟨s, j, ?_, hinv.toProgress, hle, fun _ => by omega⟩
      unfold fejerLoop
      rw [if_neg hn]

theorem fInv_start (g : Grid K) (f : K → K) (a b : K) : FInv g f a b 0 {} :=
  ⟨⟨rfl, rfl⟩, rfl, rfl, le_rfl⟩

end Mon

/-- **C37, integration.** For every integrand, interval, tolerance settings and node limit of at least 129:
the integrator stops (within `maxn` refinements, whatever the budget), only uses rules with at most `maxn`
nodes, and returns one of its own estimates together with the distance of that estimate to the one before. -/
theorem C37_integrate (big decr : K) (hbig : 0 ≤ big) (hd : decr ≤ 1) (p : Par K) (g : Grid K) (hg : GridOK g)
    (f : K → K) (a b : K) (maxn : ℕ) (hm : 129 ≤ maxn) :
    ∀ fuel, maxn ≤ fuel → ∃ j ests,
      integrateFejer2 big decr p g f a b maxn fuel =
        .ok (quad g f a b (stepN (j + 1)), |quad g f a b (stepN (j + 1)) - quad g f a b (stepN j)|, ests) ∧
      (stepN (j + 1), quad g f a b (stepN (j + 1))) ∈ ests ∧
      (∀ q ∈ ests, q.1 ≤ maxn ∧ ∃ i, q.1 = stepN i ∧ q.2 = quad g f a b (stepN i)) := by
  intro fuel hfuel
  obtain ⟨s, j, hs, hp, hle, hsmall⟩ := fejerLoop_spec p hg f a b maxn fuel 0 {} (fInv_start g f a b)
    (by omega) (by unfold stepN; omega)
  have hj : 2 ≤ j := by
    by_contra hlt
    have := hsmall (by omega)
    have h2 : j = 0 ∨ j = 1 := by omega
    rcases h2 with rfl | rfl <;> · unfold stepN at this; omega
  have hne : s.cm.recs ≠ [] := by
    rw [hp.recs]
    intro h0
    have : (List.range (j - 1)).length = 0 := by simpa using congrArg List.length h0
    simp at this
    omega
  obtain ⟨r, hr, hb, _⟩ := C36_best big decr hbig hd s.cm hne (by
    rw [hp.recs]
    intro q hq
    obtain ⟨i, _, rfl⟩ := List.mem_map.1 hq
    exact abs_nonneg _)
  rw [hp.recs] at hr
  obtain ⟨i, hi, rfl⟩ := List.mem_map.1 hr
  rw [List.mem_range] at hi
  refine ⟨i, s.ests, ?_, ?_, ?_⟩
  · unfold integrateFejer2
    have hs' : fejerLoop p g f a b maxn fuel 65 {} = .ok s := hs
    rw [hs']
    simp only [bind, Except.bind, hb]
  · rw [hp.ests]
    exact List.mem_map.2 ⟨i + 1, List.mem_range.2 (by omega), rfl⟩
  · intro q hq
    rw [hp.ests] at hq
    obtain ⟨k, hk, rfl⟩ := List.mem_map.1 hq
    exact ⟨hle k (List.mem_range.1 hk), k, rfl, rfl⟩

/-- **C37 violated for small node limits**: with a node limit below 129 the integrator raises `IndexError`
instead of returning an estimate. -/
theorem C37_violated_small_limit (big decr : K) (p : Par K) (g : Grid K) (hg : GridOK g) (f : K → K) (a b : K)
    (maxn : ℕ) (hm : maxn < 129) (fuel : ℕ) (hfuel : maxn ≤ fuel) :
    integrateFejer2 big decr p g f a b maxn fuel = .error .index := by
  obtain ⟨s, j, hs, hp, hle, -⟩ := fejerLoop_spec p hg f a b maxn fuel 0 {} (fInv_start g f a b)
    (by omega) (by unfold stepN; omega)
  have hj : j ≤ 1 := by
    by_contra hlt
    have := hle 1 (by omega)
    unfold stepN at this
    omega
  have hr : s.cm.recs = [] := by
    rw [hp.recs]
    have : j - 1 = 0 := by omega
    rw [this]; rfl
  unfold integrateFejer2
  have hs' : fejerLoop p g f a b maxn fuel 65 {} = .ok s := hs
  rw [hs']
  simp only [bind, Except.bind, C36_best_empty big decr s.cm hr]

/-! ### interpolation -/

/-- The node families of an interpolator fit together. -/
structure InterpOK (i : Interp K) (next : ℕ → ℕ) (n₀ : ℕ) : Prop where
  grow : ∀ n, n₀ ≤ n → n < next n
  nonempty : ∀ n, n₀ ≤ n → i.nodes n ≠ [] ∧ i.inc (next n) ≠ []
  refine : ∀ n f, n₀ ≤ n →
    i.combine (graph f (i.nodes n)) (graph f (i.inc (next n))) = .ok (graph f (i.nodes (next n)))

namespace Mon

theorem foldl_max_ge (xs : List K) : ∀ x, x ≤ xs.foldl max x ∧ ∀ y ∈ xs, y ≤ xs.foldl max x := by
  induction xs with
  | nil => intro x; simp
  | cons z zs ih =>
    intro x
    obtain ⟨h1, h2⟩ := ih (max x z)
    refine ⟨(le_max_left _ _).trans h1, ?_⟩
    intro y hy
    rcases List.mem_cons.1 hy with rfl | hy
    · exact (le_max_right _ _).trans h1
    · exact h2 y hy

theorem foldl_max_mem (xs : List K) : ∀ x, xs.foldl max x = x ∨ xs.foldl max x ∈ xs := by
  induction xs with
  | nil => intro x; simp
  | cons z zs ih =>
    intro x
    rcases ih (max x z) with h | h
    · rcases max_choice x z with h' | h' <;> rw [List.foldl_cons, h, h'] <;> simp
    · right; rw [List.foldl_cons]; exact List.mem_cons_of_mem _ h

theorem arrMax_ok {xs : List K} (h : xs ≠ []) : ∃ m ∈ xs, arrMax xs = .ok m ∧ ∀ x ∈ xs, x ≤ m := by
  cases xs with
  | nil => exact (h rfl).elim
  | cons x xs =>
    obtain ⟨h1, h2⟩ := foldl_max_ge xs x
    refine ⟨_, ?_, rfl, ?_⟩
    · rcases foldl_max_mem xs x with h | h
      · rw [h]; simp
      · simp [h]
    · intro y hy
      rcases List.mem_cons.1 hy with rfl | hy
      · exact h1
      · exact h2 y hy

end Mon

/-- the largest deviation of the interpolant through the `n` nodes at the nodes added by the next step -/
def IsTestError (i : Interp K) (next : ℕ → ℕ) (f : K → K) (n : ℕ) (e : K) : Prop :=
  (∀ x ∈ i.inc (next n), |i.interp (graph f (i.nodes n)) x - f x| ≤ e) ∧
    ∃ x ∈ i.inc (next n), e = |i.interp (graph f (i.nodes n)) x - f x|

/-- the largest value of `|f|` at the nodes of both steps -/
def IsMaxAbs (i : Interp K) (next : ℕ → ℕ) (f : K → K) (n : ℕ) (m : K) : Prop :=
  ∀ x, (x ∈ i.inc (next n) ∨ x ∈ i.nodes n) → |f x| ≤ m

/-- What the adaptive interpolation guarantees about its result: `n` nodes, the values at them, the error.
Either it stopped at a test (then the reported error is the largest deviation of the returned interpolant
at the test nodes, and in case of convergence within tolerance), or it reached the node limit (then the
error is that of the interpolant before the last refinement). -/
def InterpResult (p : Par K) (i : Interp K) (next : ℕ → ℕ) (n₀ : ℕ) (f : K → K) (maxn : ℕ)
    (s : IState K) (e : K) : Prop :=
  s.pts = graph f (i.nodes s.n) ∧ (∃ k, s.n = next^[k] n₀) ∧
  ((s.n ≤ maxn ∧ s.ans ≠ .cont ∧ IsTestError i next f s.n e ∧
      (s.ans = .converged → ∃ m, (∃ x, (x ∈ i.inc (next s.n) ∨ x ∈ i.nodes s.n) ∧ m = |f x|) ∧
        IsMaxAbs i next f s.n m ∧ (e ≤ p.abstol ∨ e ≤ p.reltol * m))) ∨
   (maxn < s.n ∧ ∃ n ≤ maxn, s.n = next n ∧ IsTestError i next f n e))

namespace Mon

theorem testAccuracy_ok {i : Interp K} {next : ℕ → ℕ} {n₀ : ℕ} (hi : InterpOK i next n₀) (f : K → K) {n : ℕ}
    (hn : n₀ ≤ n) : ∃ e, testAccuracy i (graph f (i.nodes n)) (graph f (i.inc (next n))) = .ok e ∧
      IsTestError i next f n e := by
  obtain ⟨e, he, h, hle⟩ := arrMax_ok
    (xs := (graph f (i.inc (next n))).map fun q => |i.interp (graph f (i.nodes n)) q.1 - q.2|)
    (by simpa [graph] using (hi.nonempty n hn).2)
  refine ⟨e, h, ?_, ?_⟩
  · intro x hx
    apply hle
    simp only [graph, List.map_map, List.mem_map]
    exact ⟨x, hx, rfl⟩
  · simp only [graph, List.map_map, List.mem_map] at he
    obtain ⟨x, hx, h⟩ := he
    exact ⟨x, hx, h.symm⟩

theorem interpLoop_spec (p : Par K) {i : Interp K} {next : ℕ → ℕ} {n₀ : ℕ} (hi : InterpOK i next n₀) (f : K → K)
    (maxn : ℕ) : ∀ (fuel : ℕ) (s : IState K), n₀ ≤ s.n → s.pts = graph f (i.nodes s.n) →
      (∃ k, s.n = next^[k] n₀) → s.cm.lastGood ≤ s.cm.recs.length → maxn < s.n + fuel →
      (maxn < s.n → ∃ e, s.err = some e ∧ ∃ n ≤ maxn, s.n = next n ∧ IsTestError i next f n e) →
      ∃ s' e, interpLoop p i next f maxn fuel s = .ok s' ∧ s'.err = some e ∧
        InterpResult p i next n₀ f maxn s' e := by
  intro fuel
  induction fuel with
  | zero =>
    intro s hn hpts hk _ hf herr
    obtain ⟨e, he, hrest⟩ := herr (by omega)
    refine ⟨s, e, ?_, he, hpts, hk, .inr ⟨by omega, hrest⟩⟩
    unfold interpLoop
    rw [if_neg (by omega)]
  | succ fuel ih =>
    intro s hn hpts hk hlg hf herr
    by_cases hle : s.n ≤ maxn
    · obtain ⟨e, he, herr⟩ := testAccuracy_ok hi f hn
      obtain ⟨m1, hm1, h1, h1'⟩ := arrMax_ok (xs := (graph f (i.inc (next s.n))).map (|·.2|))
        (by simpa [graph] using (hi.nonempty _ hn).2)
      obtain ⟨m2, hm2, h2, h2'⟩ := arrMax_ok (xs := (graph f (i.nodes s.n)).map (|·.2|))
        (by simpa [graph] using (hi.nonempty _ hn).1)
      obtain ⟨cm, ans, ht, hr, hg, hconv⟩ := test_ok p s.cm ⟨e, max m1 m2, ()⟩ hlg
      dsimp only at ht
      unfold interpLoop
      rw [if_pos hle]
      dsimp only
      rw [hpts]
      simp only [he, h1, h2, ht, bind, Except.bind]
      by_cases hs : ans.stop = true
      · rw [if_pos hs]
        refine ⟨_, e, rfl, rfl, rfl, hk, .inl ⟨hle, ?_, herr, ?_⟩⟩
        · rintro h
          dsimp only at h
          rw [h] at hs; cases hs
        · intro h
          dsimp only at h
          obtain ⟨hw, _⟩ := (hconv h).2
          have hm1' : 0 ≤ max m1 m2 := by
            simp only [graph, List.map_map, List.mem_map] at hm1
            obtain ⟨x, _, hx⟩ := hm1
            exact le_trans (by rw [← hx]; exact abs_nonneg _) (le_max_left _ _)
          refine ⟨max m1 m2, ?_, ?_, ?_⟩
          · simp only [graph, List.map_map, List.mem_map] at hm1 hm2
            rcases max_choice m1 m2 with h | h
            · obtain ⟨x, hx, hx'⟩ := hm1
              exact ⟨x, .inl hx, by rw [h, ← hx']; rfl⟩
            · obtain ⟨x, hx, hx'⟩ := hm2
              exact ⟨x, .inr hx, by rw [h, ← hx']; rfl⟩
          · rintro x (hx | hx)
            · refine (h1' _ ?_).trans (le_max_left _ _)
              simp only [graph, List.map_map, List.mem_map]
              exact ⟨x, hx, rfl⟩
            · refine (h2' _ ?_).trans (le_max_right _ _)
              simp only [graph, List.map_map, List.mem_map]
              exact ⟨x, hx, rfl⟩
          · rwa [abs_of_nonneg hm1'] at hw
      · rw [if_neg hs, hi.refine _ f hn]
        dsimp only
        have hgrow := hi.grow _ hn
        refine ih _ (by dsimp only; omega) rfl ?_ hg (by dsimp only; omega) ?_
        · obtain ⟨k, hk⟩ := hk
          exact ⟨k + 1, by rw [Function.iterate_succ_apply', ← hk]⟩
        · intro _
          exact ⟨e, rfl, s.n, hle, rfl, herr⟩
    · obtain ⟨e, he, hrest⟩ := herr (by omega)
      refine ⟨s, e, ?_, he, hpts, hk, .inr ⟨by omega, hrest⟩⟩
      unfold interpLoop
      rw [if_neg hle]

end Mon

/-- **C37, interpolation.** For every function and tolerance settings, and every node limit not below the
initial number of nodes: adaptive interpolation stops, its nodes carry the true function values, and the
error it reports is as described in `InterpResult`. -/
theorem C37_interpolate (p : Par K) (i : Interp K) (next : ℕ → ℕ) (n₀ : ℕ) (hi : InterpOK i next n₀)
    (f : K → K) (maxn : ℕ) (hm : n₀ ≤ maxn) (fuel : ℕ) (hfuel : maxn < n₀ + fuel) :
    ∃ s e, adaptiveInterp p i next n₀ f maxn fuel = .ok (s, e) ∧ InterpResult p i next n₀ f maxn s e := by
  obtain ⟨s, e, hs, he, hr⟩ := interpLoop_spec p hi f maxn fuel { n := n₀, pts := graph f (i.nodes n₀) } le_rfl rfl
    ⟨0, rfl⟩ le_rfl hfuel (fun h => by dsimp only at h; omega)
  refine ⟨s, e, ?_, hr⟩
  unfold adaptiveInterp
  rw [hs]
  simp only [bind, Except.bind, he]

/-- With a node limit below the initial number of nodes the variable `err` is never assigned. -/
theorem C37_finding_interpolate_limit (p : Par K) (i : Interp K) (next : ℕ → ℕ) (n₀ : ℕ) (f : K → K) (maxn : ℕ)
    (hm : maxn < n₀) (fuel : ℕ) : adaptiveInterp p i next n₀ f maxn fuel = .error .unbound := by
  unfold adaptiveInterp interpLoop
  dsimp only
  rw [if_neg (by omega)]
  rfl

end Pacal
