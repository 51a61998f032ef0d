import Verif.Graph.Sampling
import Mathlib.Data.Int.Notation

/-!
# Properties C28, C29, C31

C28 dependence warnings are exact, C29 joint sampling respects shared variables, C31 free and dependent
ancestors.  `k` is Python's recursion limit; it only has to exceed the number of objects.
-/

namespace Pacal
open Graph
variable {V : Type}

/-! ## every session produces a well-formed heap -/

theorem Graph.wf_append {h : Heap V} (hwf : WF h) (n : Node V) (h1 : ∀ p ∈ n.parents, p < h.length)
    (h2 : ∀ p ∈ n.args, p < h.length) : WF (h ++ [n]) := by
  intro i m e
  rcases Nat.lt_or_ge i h.length with hl | hl
  · rw [List.getElem?_append_left hl] at e; exact hwf i m e
  · rw [List.getElem?_append_right hl] at e
    rcases hd : i - h.length with _ | d
    · rw [hd] at e
      simp at e; subst e
      have : i = h.length := by omega
      subst this; exact ⟨h1, h2⟩
    · rw [hd] at e; simp at e

theorem Graph.wf_set {h : Heap V} (hwf : WF h) (i : ℕ) (m : Node V) (h1 : ∀ p ∈ m.parents, p < i)
    (h2 : ∀ p ∈ m.args, p < i) : WF (h.set i m) := by
  intro j n e
  rw [List.getElem?_set] at e
  split at e
  · next hij =>
    split at e
    · cases e; subst hij; exact ⟨h1, h2⟩
    · cases e
  · exact hwf j n e

theorem Graph.wf_step {k : ℕ} {warn : Bool} {h : Heap V} (hwf : WF h) {c : Cmd V} {h' : Heap V} {w : Bool}
    (hs : step k warn h c = .ok (h', w)) : WF h' ∧ h.length ≤ h'.length := by
  cases c with
  | leaf b => cases hs; exact ⟨wf_append hwf _ (by simp) (by simp), by simp⟩
  | op f args b =>
    simp only [step] at hs
    split at hs
    · next ha =>
      have ha' : ∀ p ∈ args, p < h.length := by simpa using ha
      rcases hw : initWarns h k warn args with _ | w'
      · rw [hw] at hs; cases hs
      · rw [hw] at hs; cases hs
        exact ⟨wf_append hwf _ ha' ha', by simp⟩
    · cases hs
  | sign d =>
    simp only [step] at hs
    split at hs
    · next hd => cases hs; exact ⟨wf_append hwf _ (by simpa) (by simpa), by simp⟩
    · cases hs
  | makeFree i =>
    simp only [step] at hs
    split at hs
    · cases hs
    · next n e => cases hs; exact ⟨wf_set hwf i _ (by simp) (hwf i n e).2, by simp⟩
  | setIndep i b =>
    simp only [step] at hs
    split at hs
    · cases hs
    · next n e => cases hs; exact ⟨wf_set hwf i _ (hwf i n e).1 (hwf i n e).2, by simp⟩

theorem Graph.wf_run {k : ℕ} {warn : Bool} : ∀ (cs : List (Cmd V)) (h : Heap V), WF h →
    ∀ {h' : Heap V} {ws : List Bool}, run k warn h cs = .ok (h', ws) → WF h' := by
  intro cs
  induction cs with
  | nil => intro h hwf h' ws hr; cases hr; exact hwf
  | cons c cs ih =>
    intro h hwf h' ws hr
    simp only [run] at hr
    rcases hs : step k warn h c with _ | ⟨h₁, w⟩
    · rw [hs] at hr; cases hr
    · rw [hs] at hr
      rcases hr2 : run k warn h₁ cs with _ | ⟨h₂, ws'⟩
      · simp only [bind, Except.bind] at hr; rw [hr2] at hr; cases hr
      · simp only [bind, Except.bind] at hr; rw [hr2] at hr; cases hr
        exact ih h₁ (wf_step hwf hs).1 hr2

theorem Graph.wf_nil : WF ([] : Heap V) := fun i n e => by simp at e

/-! ## C28 -/

/-- **C28.** After any session (any sequence of constructions, `make_free` calls and changes of flags),
combining existing variables `args` by an operation issues the warning if and only if warnings are on and
two of the operands (at different positions) have a common ancestor; a variable counts as its own
ancestor, so using the same variable twice always warns. -/
theorem C28_warning (k : ℕ) (warn : Bool) (cs : List (Cmd V)) (h : Heap V) (ws : List Bool)
    (hrun : run k warn [] cs = .ok (h, ws)) (hk : h.length ≤ k)
    (f : List V → V) (args : List ℕ) (b : Bool) (hargs : ∀ a ∈ args, a < h.length) :
    ∃ w, step k warn h (.op f args b) = .ok (h ++ [⟨args, args, b, .op f⟩], w) ∧
      (w = true ↔ warn = true ∧ ∃ (p q : ℕ) (hp : p < args.length) (hq : q < args.length),
        p < q ∧ ∃ j, Anc h args[p] j ∧ Anc h args[q] j) := by
  have hwf : WF h := wf_run cs [] wf_nil hrun
  have hall : args.all (· < h.length) = true := by simpa using hargs
  cases warn with
  | false =>
    exact ⟨false, by simp only [step, hall, if_true, initWarns]; rfl, by simp⟩
  | true =>
    obtain ⟨w, h1, h2⟩ := checkLoop_spec hwf k hk args ∅ hargs
    refine ⟨w, by simp only [step, hall, if_true, initWarns, h1]; rfl, ?_⟩
    rw [h2, List.pairwise_iff_getElem]
    push Not
    constructor
    · rintro (⟨_, _, j, hj, _⟩ | ⟨p, q, hp, hq, hpq, hj⟩)
      · simp at hj
      · exact ⟨rfl, p, q, hp, hq, hpq, hj⟩
    · rintro ⟨_, p, q, hp, hq, hpq, hj⟩
      exact .inr ⟨p, q, hp, hq, hpq, hj⟩

/-- **C28, two operands.** -/
theorem C28_binary (k : ℕ) (cs : List (Cmd V)) (h : Heap V) (ws : List Bool)
    (hrun : run k true [] cs = .ok (h, ws)) (hk : h.length ≤ k) (f : List V → V) (x y : ℕ) (b : Bool)
    (hx : x < h.length) (hy : y < h.length) :
    ∃ w, step k true h (.op f [x, y] b) = .ok (h ++ [⟨[x, y], [x, y], b, .op f⟩], w) ∧
      (w = true ↔ ∃ j, Anc h x j ∧ Anc h y j) := by
  obtain ⟨w, h1, h2⟩ := C28_warning k true cs h ws hrun hk f [x, y] b (by simp [hx, hy])
  refine ⟨w, h1, h2.trans ⟨?_, ?_⟩⟩
  · rintro ⟨_, p, q, hp, hq, hpq, hj⟩
    simp only [List.length_cons, List.length_nil] at hp hq
    have : p = 0 := by omega
    have : q = 1 := by omega
    subst p; subst q
    exact hj
  · intro hj
    exact ⟨rfl, 0, 1, by simp, by simp, by omega, hj⟩

/-- the warning set computed is the set of ancestors -/
theorem C28_ancestors (k : ℕ) (warn : Bool) (cs : List (Cmd V)) (h : Heap V) (ws : List Bool)
    (hrun : run k warn [] cs = .ok (h, ws)) (hk : h.length ≤ k) (i : ℕ) (hi : i < h.length) :
    ∃ r, ancIDs h k i ∅ = .ok r ∧ ∀ j, j ∈ r ↔ Anc h i j := by
  obtain ⟨r, h1, h2⟩ := ancIDs_spec (wf_run cs [] wf_nil hrun) k i ∅ (by omega) hi (by simp)
  exact ⟨r, h1, fun j => by rw [h2]; simp⟩

/-- Non-vacuity: X, Y, X+Y, (X+Y)*X warns, X*Y does not, make_free removes the dependence. -/
example : (run 100 true [] [.leaf true, .leaf true, .op (fun _ => (0 : ℤ)) [0, 1] true,
    .op (fun _ => 0) [2, 0] true, .op (fun _ => 0) [0, 1] true, .op (fun _ => 0) [1, 1] true,
    .makeFree 2, .op (fun _ => 0) [2, 0] true]).map Prod.snd
    = .ok [false, false, false, true, false, true, false, false] := by
  decide +kernel

/-! ## C29 -/

/-- **C29.** Sampling an expression all of whose nodes have `indep = False`, for every source of
randomness: each underlying variable occurring in the expression is drawn exactly once (the log of draws
has no repetition and contains exactly the raw variables of the expression), and the sample is the value
of the expression for the drawn values. -/
theorem C29_joint_sampling (k : ℕ) (warn : Bool) (cs : List (Cmd V)) (h : Heap V) (ws : List Bool)
    (hrun : run k warn [] cs = .ok (h, ws)) (hk : h.length ≤ k) (src : ℕ → ℕ → V) (i : ℕ)
    (hi : i < h.length) (hind : ∀ j n, Occurs h i j → h[j]? = some n → n.indep = false) :
    ∃ v log, rand h src k i ⟨none, []⟩ = .ok (v, ⟨none, log⟩) ∧ log.Nodup ∧
      (∀ j, j ∈ log ↔ Occurs h i j ∧ IsRaw h j) ∧
      Ev h (fun j => src (log.idxOf j) j) i v := by
  have hwf : WF h := wf_run cs [] wf_nil hrun
  obtain ⟨n, e⟩ := exists_node hi
  obtain ⟨v, c', log, h1, hinv, h2, _, h4⟩ :=
    rand_some src hwf k i (fun _ => none) [] (by omega) hi hind (inv_empty h src)
  refine ⟨v, log, rand_none src e (hind i n .refl e) [] h1, hinv.nodup, ?_, (hinv.ev i v h2).1⟩
  intro j
  constructor
  · intro hj
    rcases h4 j hj with h' | h'
    · simp at h'
    · exact ⟨h', (hinv.drawn j hj).1⟩
  · rintro ⟨h', hr⟩
    exact (hinv.ev i v h2).2 j h' hr

/-- **C29, identities.** An algebraic identity of an expression (its value is `c` for every assignment of
the underlying variables) holds for every sample. -/
theorem C29_identity (k : ℕ) (warn : Bool) (cs : List (Cmd V)) (h : Heap V) (ws : List Bool)
    (hrun : run k warn [] cs = .ok (h, ws)) (hk : h.length ≤ k) (src : ℕ → ℕ → V) (i : ℕ)
    (hi : i < h.length) (hind : ∀ j n, Occurs h i j → h[j]? = some n → n.indep = false) (c : V)
    (hid : ∀ env v, Ev h env i v → v = c) :
    ∃ log, rand h src k i ⟨none, []⟩ = .ok (c, ⟨none, log⟩) := by
  obtain ⟨v, log, h1, _, _, h4⟩ := C29_joint_sampling k warn cs h ws hrun hk src i hi hind
  have := hid _ _ h4
  subst this
  exact ⟨log, h1⟩

/-- values of expressions are determined by the values of the variables -/
theorem Graph.ev_unique {h : Heap V} (hwf : WF h) {env : ℕ → V} : ∀ (i : ℕ) (u v : V),
    Ev h env i u → Ev h env i v → u = v := by
  intro i
  induction i using Nat.strong_induction_on with
  | _ i ih =>
    intro u v hu hv
    cases hu with
    | raw e hk =>
      cases hv with
      | raw e' hk' => rfl
      | op e' hk' _ => rw [e] at e'; cases e'; rw [hk] at hk'; cases hk'
    | @op _ n f us e hk hf =>
      cases hv with
      | raw e' hk' => rw [e] at e'; cases e'; rw [hk] at hk'; cases hk'
      | @op _ n' f' vs e' hk' hf' =>
        rw [e] at e'; cases e'
        rw [hk] at hk'; cases hk'
        congr 1
        have hlt := (hwf i n e).2
        generalize n.args = as at hf hf' hlt
        clear e hk
        induction hf generalizing vs with
        | nil => cases hf'; rfl
        | cons h1 _ ih2 =>
          cases hf' with
          | cons g1 g2 =>
            rw [ih _ (hlt _ (by simp)) _ _ h1 g1, ih2 g2 (fun p hp => hlt p (by simp [hp]))]

/-- **C29, difference with itself.** For every expression `x`, the sample of `x - x` is `0`. -/
theorem C29_self_difference [AddGroup V] (k : ℕ) (warn : Bool) (cs : List (Cmd V)) (h : Heap V)
    (ws : List Bool) (hrun : run k warn [] cs = .ok (h, ws)) (hk : h.length ≤ k) (src : ℕ → ℕ → V)
    (i x : ℕ) (n : Node V) (f : List V → V) (e : h[i]? = some n) (hkind : n.kind = .op f)
    (hargs : n.args = [x, x]) (hf : ∀ a b, f [a, b] = a - b)
    (hind : ∀ j n, Occurs h i j → h[j]? = some n → n.indep = false) :
    ∃ log, rand h src k i ⟨none, []⟩ = .ok (0, ⟨none, log⟩) := by
  have hwf : WF h := wf_run cs [] wf_nil hrun
  refine C29_identity k warn cs h ws hrun hk src i (lt_length e) hind 0 ?_
  intro env v hv
  cases hv with
  | raw e' hk' => rw [e] at e'; cases e'; rw [hkind] at hk'; cases hk'
  | @op _ n' f' vs e' hk' hf' =>
    rw [e] at e'; cases e'
    rw [hkind] at hk'; cases hk'
    rw [hargs] at hf'
    cases hf' with
    | cons h1 h2 =>
      cases h2 with
      | cons h3 h4 =>
        cases h4
        rw [hf, ev_unique hwf x _ _ h1 h3, sub_self]

/-- The full claim without any assumption on the flags, for a session that only uses the default flags
(`indep = True`, distr.py:46). -/
def C29_full_default_flags : Prop :=
  ∀ (src : ℕ → ℕ → ℤ), ∃ log,
    rand [⟨[], [], true, .raw⟩, ⟨[0, 0], [0, 0], true, .op fun l => l.getD 0 0 - l.getD 1 0⟩] src 100 1
      ⟨none, []⟩ = .ok (0, ⟨none, log⟩)

/-- **C29, finding.** With the default flags `X - X` is sampled as the difference of two independent
draws. -/
theorem C29_violated_default_flags : ¬ C29_full_default_flags := by
  intro hf
  obtain ⟨log, hl⟩ := hf (fun k _ => k)
  have : rand (V := ℤ) [⟨[], [], true, .raw⟩,
      ⟨[0, 0], [0, 0], true, .op fun l => l.getD 0 0 - l.getD 1 0⟩] (fun k _ => k) 100 1 ⟨none, []⟩
      = .ok (-1, ⟨none, [0, 0]⟩) := rfl
  rw [this] at hl
  cases hl

/-- **C29, finding.** `sign(X)` is not sampled from the sample of `X`, even without the independence
assumption: it is a separate draw (here `1·` the sign node `1` draws once more), so `sign(X)` and `X` are
not jointly consistent. -/
theorem C29_finding_sign : ∃ log,
    rand (V := ℤ) [⟨[], [], false, .raw⟩, ⟨[0], [0], false, .raw⟩,
      ⟨[1, 0], [1, 0], false, .op fun l => l.getD 0 0 * l.getD 1 0⟩] (fun k _ => if k = 0 then 1 else -5)
      100 2 ⟨none, []⟩ = .ok (-5, ⟨none, log⟩) ∧ log = [1, 0] := ⟨_, rfl, rfl⟩

/-- Non-vacuity: X shared three times in (X + Y) * X - X, two draws. -/
example : (rand (V := ℤ) [⟨[], [], false, .raw⟩, ⟨[], [], false, .raw⟩,
    ⟨[0, 1], [0, 1], false, .op fun l => l.getD 0 0 + l.getD 1 0⟩,
    ⟨[2, 0], [2, 0], false, .op fun l => l.getD 0 0 * l.getD 1 0⟩,
    ⟨[3, 0], [3, 0], false, .op fun l => l.getD 0 0 - l.getD 1 0⟩] (fun k _ => k + 2) 100 4
    ⟨none, []⟩).map (fun r => (r.1, r.2.log)) = .ok (8, [0, 1]) := rfl

/-! ## C31 -/

/-- **C31, `make_free`.** After `make_free` on a variable it has no ancestor but itself. -/
theorem C31_make_free (k : ℕ) (warn : Bool) (h h' : Heap V) (w : Bool) (i : ℕ)
    (hs : step k warn h (.makeFree i) = .ok (h', w)) (j : ℕ) : Anc h' i j ↔ j = i := by
  constructor
  · intro ha
    rcases Relation.ReflTransGen.cases_head ha with e | ⟨c, ⟨n, hn, hc⟩, _⟩
    · exact e.symm
    · exfalso
      simp only [step] at hs
      split at hs
      · cases hs
      · next m hm =>
        cases hs
        obtain ⟨hlt, rfl⟩ := List.getElem?_eq_some_iff.1 hm
        rw [List.getElem?_set_self hlt] at hn
        cases hn
        simp at hc
  · rintro rfl
    exact Relation.ReflTransGen.refl

/-- **C31.** For every session and every variable: the free ancestors are exactly the ancestors without
parents, the dependent ones exactly the ancestors with parents; so the two lists are disjoint and together
contain exactly the ancestors. -/
theorem C31_free_dependent (k : ℕ) (warn : Bool) (cs : List (Cmd V)) (h : Heap V) (ws : List Bool)
    (hrun : run k warn [] cs = .ok (h, ws)) (hk : h.length ≤ k) (i : ℕ) (hi : i < h.length) :
    ∃ fr dp, parentsFree h k i = .ok fr ∧ parentsDep h k i = .ok dp ∧
      (∀ j, j ∈ fr ↔ Anc h i j ∧ ¬ ∃ p, Parent h j p) ∧
      (∀ j, j ∈ dp ↔ Anc h i j ∧ ∃ p, Parent h j p) ∧
      Disjoint fr dp ∧ (∀ j, j ∈ fr ∪ dp ↔ Anc h i j) := by
  have hwf : WF h := wf_run cs [] wf_nil hrun
  obtain ⟨fr, h1, h2⟩ := parentsFree_spec hwf k i (by omega) hi
  obtain ⟨dp, g1, g2⟩ := parentsDep_spec hwf k i (by omega) hi
  have hlt : ∀ j, Anc h i j → j < h.length := by
    intro j hj
    induction hj with
    | refl => exact hi
    | tail _ hp ih =>
      obtain ⟨n, e, hm⟩ := hp
      have := (hwf _ n e).1 _ hm
      omega
  have k1 : ∀ j, j ∈ fr ↔ Anc h i j ∧ ¬ ∃ p, Parent h j p := by
    intro j
    rw [h2]
    constructor
    · rintro ⟨ha, n, e, h0⟩
      refine ⟨ha, ?_⟩
      rintro ⟨p, n', e', hp⟩
      rw [e] at e'; cases e'; rw [h0] at hp; simp at hp
    · rintro ⟨ha, hn⟩
      obtain ⟨n, e⟩ := exists_node (hlt j ha)
      refine ⟨ha, n, e, ?_⟩
      rcases hp : n.parents with _ | ⟨p, ps⟩
      · rfl
      · exact absurd ⟨p, n, e, by simp [hp]⟩ hn
  have k2 : ∀ j, j ∈ dp ↔ Anc h i j ∧ ∃ p, Parent h j p := by
    intro j
    rw [g2]
    constructor
    · rintro ⟨ha, n, e, h0⟩
      obtain ⟨p, hp⟩ := List.exists_mem_of_ne_nil _ h0
      exact ⟨ha, p, n, e, hp⟩
    · rintro ⟨ha, p, n, e, hp⟩
      exact ⟨ha, n, e, by intro h0; rw [h0] at hp; simp at hp⟩
  refine ⟨fr, dp, h1, g1, k1, k2, ?_, ?_⟩
  · rw [Finset.disjoint_left]
    intro j hj hj'
    exact ((k1 j).1 hj).2 ((k2 j).1 hj').2
  · intro j
    rw [Finset.mem_union, k1, k2]
    tauto

/-- **C31, `getParentsAll`.** It returns the variable itself and its dependent ancestors. -/
theorem C31_all_is_dependent (k : ℕ) (warn : Bool) (cs : List (Cmd V)) (h : Heap V) (ws : List Bool)
    (hrun : run k warn [] cs = .ok (h, ws)) (hk : h.length ≤ k) (i : ℕ) (hi : i < h.length) :
    ∃ r, parentsAll h k i = .ok r ∧ ∀ j, j ∈ r ↔ j = i ∨ (Anc h i j ∧ ∃ p, Parent h j p) := by
  obtain ⟨r, h1, h2⟩ := parentsAll_spec (wf_run cs [] wf_nil hrun) k i hk hi
  refine ⟨r, h1, fun j => (h2 j).trans (or_congr Iff.rfl (and_congr Iff.rfl ?_))⟩
  constructor
  · rintro ⟨n, e, h0⟩
    obtain ⟨p, hp⟩ := List.exists_mem_of_ne_nil _ h0
    exact ⟨p, n, e, hp⟩
  · rintro ⟨p, n, e, hp⟩
    exact ⟨n, e, by intro h0; rw [h0] at hp; simp at hp⟩

/-- **C31, finding.** Contrary to its name, `getParentsAll` of `X + Y` does not contain `X` or `Y`. -/
theorem C31_violated_all : ∃ h : Heap ℤ,
    (run 100 true [] [.leaf true, .leaf true, .op (fun _ => (0 : ℤ)) [0, 1] true]).map Prod.fst = .ok h ∧
    parentsAll h 100 2 = .ok {2} ∧ Anc h 2 0 := by
  refine ⟨[⟨[], [], true, .raw⟩, ⟨[], [], true, .raw⟩, ⟨[0, 1], [0, 1], true, .op fun _ => 0⟩], rfl, ?_, ?_⟩
  · decide +kernel
  · exact .single ⟨_, rfl, by simp⟩

example : ∃ r, parentsFree (V := ℤ) [⟨[], [], true, .raw⟩, ⟨[], [], true, .raw⟩,
    ⟨[0, 1], [0, 1], true, .op fun _ => 0⟩, ⟨[2, 0], [2, 0], true, .op fun _ => 0⟩] 10 3 = .ok r ∧ r = {0, 1} :=
  ⟨_, rfl, by decide +kernel⟩

end Pacal
