import Verif.Util.Monitor
import Mathlib.Tactic.Linarith
import Mathlib.Tactic.NormNum
import Mathlib.Tactic.Positivity

/-!
# Property C36: the convergence monitor
-/

set_option linter.unusedSectionVars false

namespace Pacal
open Mon
variable {K E : Type*} [Field K] [LinearOrder K] [IsStrictOrderedRing K]

/-- the documented test: the last error is within the absolute or the relative tolerance, and the value is
not zero if that is demanded -/
def WithinTol (p : Par K) (r : Rec K E) : Prop :=
  (r.ae ≤ p.abstol ∨ r.ae ≤ p.reltol * |r.y|) ∧ (p.forceNonzero = true → r.y ≠ 0)

namespace Mon

theorem cond_iff (p : Par K) (r : Rec K E) :
    (r.ae ≤ max p.abstol (|r.y| * p.reltol) ∧ (p.forceNonzero = false ∨ 0 < |r.y|)) ↔ WithinTol p r := by
  unfold WithinTol
  rw [le_max_iff, mul_comm, abs_pos]
  constructor
  · rintro ⟨h, h'⟩
    refine ⟨h, fun hf => ?_⟩
    rcases h' with h' | h'
    · rw [h'] at hf; cases hf
    · exact h'
  · rintro ⟨h, h'⟩
    refine ⟨h, ?_⟩
    cases hf : p.forceNonzero
    · exact .inl rfl
    · exact .inr (h' hf)

/-- the bookkeeping of a test that did not converge -/
def upd (p : Par K) (s : State K E) (r good : Rec K E) : State K E :=
  if r.ae < p.minImprovementRatio * good.ae then
    { s.add r.ae r.y r.e with lastGood := s.recs.length, nNoImprovement := 0 }
  else { s.add r.ae r.y r.e with nNoImprovement := s.nNoImprovement + 1 }

open Classical in
/-- the outcomes of a test, with the condition rewritten -/
theorem test_add (p : Par K) (s : State K E) (r : Rec K E) :
    (s.add r.ae r.y r.e).test p =
      if WithinTol p r then .ok ({ s.add r.ae r.y r.e with converged := true }, .converged)
      else
        match (s.recs ++ [r])[s.lastGood]? with
        | none => .error .index
        | some good =>
          if s.recs.length + 1 ≥ max 2 p.minQuitIter ∧
              (upd p s r good).nNoImprovement ≥ p.minQuitNoImprovement then
            .ok (upd p s r good, .didNotConverge)
          else .ok (upd p s r good, .cont) := by
  have e : (s.add r.ae r.y r.e).recs = s.recs ++ [r] := rfl
  unfold State.test
  rw [e, List.getLast?_append]
  simp only [List.getLast?_singleton, Option.some_or, List.length_append, List.length_cons, List.length_nil]
  by_cases h : WithinTol p r
  · rw [if_pos h, if_pos ((cond_iff p r).2 h)]; rfl
  · rw [if_neg h, if_neg (fun h' => h ((cond_iff p r).1 h'))]
    have e2 : (s.add r.ae r.y r.e).lastGood = s.lastGood := rfl
    rw [e2]
    rfl

end Mon

/-- **C36, recorded values are never changed**: testing and asking for the best result leave the records
alone, adding appends one record. -/
theorem C36_records (p : Par K) (s s' : State K E) (a : Answer) (h : s.test p = .ok (s', a)) (ae y : K) (e : E) :
    s'.recs = s.recs ∧ (s.add ae y e).recs = s.recs ++ [⟨ae, y, e⟩] := by
  refine ⟨?_, rfl⟩
  unfold State.test at h
  split at h
  · cases h
  · dsimp only at h
    split at h
    · cases h; rfl
    · split at h
      · cases h
      · split at h
        · split at h <;> (cases h; rfl)
        · split at h <;> (cases h; rfl)

/-- **C36, convergence.** After a value was added, the monitor reports convergence exactly when the added
value passes the documented test. -/
theorem C36_converged (p : Par K) (s : State K E) (r : Rec K E) :
    (∃ s', (s.add r.ae r.y r.e).test p = .ok (s', .converged)) ↔ WithinTol p r := by
  rw [test_add]
  by_cases h : WithinTol p r
  · simp [h]
  · simp only [h, if_false, iff_false]
    rintro ⟨s', h'⟩
    split at h'
    · cases h'
    · split at h' <;> cases h'

/-- The states of a monitor that was given the records `rs` one by one, and answered "continue" each time. -/
inductive Continuing (p : Par K) : List (Rec K E) → State K E → Prop
  | start : Continuing p [] {}
  | next {rs : List (Rec K E)} {s s' : State K E} {r : Rec K E} : Continuing p rs s →
      (s.add r.ae r.y r.e).test p = .ok (s', .cont) → Continuing p (rs ++ [r]) s'

/-- error number `i` -/
def errAt (rs : List (Rec K E)) (i : ℕ) (e : K) : Prop := ∃ r, rs[i]? = some r ∧ r.ae = e

/-- `g` is a reference step of the errors `rs`: its error is smaller than all earlier ones, and no later
error is better than it by the required factor. -/
def Reference (ratio : K) (rs : List (Rec K E)) (g : ℕ) : Prop :=
  ∃ eg, errAt rs g eg ∧ (∀ i e, i < g → errAt rs i e → eg < e) ∧
    ∀ i e, g < i → errAt rs i e → ratio * eg ≤ e

/-- number of steps without improvement when `g` is the reference step; the first step counts as one
without improvement -/
def stepsSince (k g : ℕ) : ℕ := if g = 0 then k else k - 1 - g

namespace Mon

theorem errAt_append {rs : List (Rec K E)} {r : Rec K E} {i : ℕ} {e : K} (h : errAt (rs ++ [r]) i e) :
    (i < rs.length ∧ errAt rs i e) ∨ (i = rs.length ∧ e = r.ae) := by
  obtain ⟨q, hq, rfl⟩ := h
  by_cases hi : i < rs.length
  · rw [List.getElem?_append_left hi] at hq
    exact .inl ⟨hi, q, hq, rfl⟩
  · rw [List.getElem?_append_right (by omega)] at hq
    have : i - rs.length = 0 := by
      by_contra hne
      rw [List.getElem?_eq_none (by simp; omega)] at hq
      cases hq
    rw [this] at hq
    simp at hq
    subst hq
    exact .inr ⟨by omega, rfl⟩

theorem errAt_left {rs : List (Rec K E)} {r : Rec K E} {i : ℕ} {e : K} (h : errAt rs i e) :
    errAt (rs ++ [r]) i e := by
  obtain ⟨q, hq, rfl⟩ := h
  have hi : i < rs.length := (List.getElem?_eq_some_iff.1 hq).1
  exact ⟨q, by rw [List.getElem?_append_left hi, hq], rfl⟩

theorem errAt_last {rs : List (Rec K E)} {r : Rec K E} : errAt (rs ++ [r]) rs.length r.ae :=
  ⟨r, by simp, rfl⟩

theorem errAt_unique {rs : List (Rec K E)} {i : ℕ} {e e' : K} (h : errAt rs i e) (h' : errAt rs i e') : e = e' := by
  obtain ⟨q, hq, rfl⟩ := h
  obtain ⟨q', hq', rfl⟩ := h'
  rw [hq] at hq'; cases hq'; rfl

/-- the invariant of a monitor that has not stopped -/
structure Inv (p : Par K) (rs : List (Rec K E)) (s : State K E) : Prop where
  recs : s.recs = rs
  notConv : s.converged = false
  empty : rs = [] → s.lastGood = 0 ∧ s.nNoImprovement = 0
  ref : rs ≠ [] → Reference p.minImprovementRatio rs s.lastGood ∧
      s.nNoImprovement = stepsSince rs.length s.lastGood

theorem Inv.good {p : Par K} {rs : List (Rec K E)} {s : State K E} (h : Inv p rs s) (r : Rec K E) :
    ∃ good, (s.recs ++ [r])[s.lastGood]? = some good := by
  rw [h.recs]
  by_cases hne : rs = []
  · subst hne; rw [(h.empty rfl).1]; exact ⟨r, rfl⟩
  · obtain ⟨⟨eg, ⟨q, hq, _⟩, _⟩, _⟩ := h.ref hne
    refine ⟨q, ?_⟩
    rw [List.getElem?_append_left (List.getElem?_eq_some_iff.1 hq).1, hq]

theorem Inv.upd {p : Par K} {rs : List (Rec K E)} {s : State K E} (h : Inv p rs s) {r good : Rec K E}
    (hr0 : 0 ≤ p.minImprovementRatio) (hr1 : p.minImprovementRatio ≤ 1) (hpos : ∀ q ∈ rs ++ [r], 0 ≤ q.ae)
    (hgood : (s.recs ++ [r])[s.lastGood]? = some good) : Inv p (rs ++ [r]) (Mon.upd p s r good) := by
  obtain ⟨i1, i2, i3, i4⟩ := h
  have hrpos : 0 ≤ r.ae := hpos r (by simp)
  rw [i1] at hgood
  refine ⟨?_, ?_, fun h => by simp at h, fun _ => ?_⟩
  · unfold Mon.upd; split <;> simp [State.add, i1]
  · unfold Mon.upd; split <;> simp [State.add, i2]
  · unfold Mon.upd
    by_cases hne : rs = []
    · subst hne
      obtain ⟨j1, j2⟩ := i3 rfl
      rw [j1] at hgood
      simp at hgood
      subst hgood
      rw [if_neg (by nlinarith)]
      refine ⟨⟨r.ae, ⟨r, by simp [State.add, j1], rfl⟩, ?_, ?_⟩, ?_⟩
      · intro i e hi; simp [State.add, j1] at hi
      · intro i e hi he
        simp only [State.add, j1] at hi
        rcases errAt_append he with ⟨hlt, _⟩ | ⟨hlt, _⟩ <;> simp at hlt; omega
      · simp [State.add, j1, j2, stepsSince]
    · obtain ⟨⟨eg, hg, hbefore, hafter⟩, hn⟩ := i4 hne
      have hglt : s.lastGood < rs.length := by
        obtain ⟨q, hq, _⟩ := hg
        exact (List.getElem?_eq_some_iff.1 hq).1
      have hgood' : errAt rs s.lastGood good.ae := by
        refine ⟨good, ?_, rfl⟩
        rw [List.getElem?_append_left hglt] at hgood
        exact hgood
      have hge : good.ae = eg := errAt_unique hgood' hg
      have hegpos : 0 ≤ eg := by
        obtain ⟨q, hq, rfl⟩ := hg
        exact hpos q (by simp [List.mem_of_getElem? hq])
      by_cases himp : r.ae < p.minImprovementRatio * good.ae
      · rw [if_pos himp]
        rw [hge] at himp
        simp only [i1]
        refine ⟨⟨r.ae, errAt_last, ?_, ?_⟩, ?_⟩
        · intro i e hi he
          rcases errAt_append he with ⟨_, he'⟩ | ⟨hlt, _⟩
          · rcases lt_trichotomy i s.lastGood with h' | h' | h'
            · have := hbefore i e h' he'
              nlinarith
            · subst h'
              rw [errAt_unique he' hg]
              nlinarith
            · have := hafter i e h' he'
              linarith
          · omega
        · intro i e hi he
          rcases errAt_append he with ⟨h', _⟩ | ⟨h', _⟩ <;> omega
        · have : rs.length ≠ 0 := by simpa using hne
          simp [stepsSince, hne]
      · rw [if_neg himp]
        rw [hge] at himp
        refine ⟨⟨eg, errAt_left hg, ?_, ?_⟩, ?_⟩
        · intro i e hi he
          simp only [State.add] at hi
          rcases errAt_append he with ⟨_, he'⟩ | ⟨h', _⟩
          · exact hbefore i e hi he'
          · omega
        · intro i e hi he
          rcases errAt_append he with ⟨_, he'⟩ | ⟨_, rfl⟩
          · exact hafter i e hi he'
          · exact not_lt.1 himp
        · simp only [State.add, hn, stepsSince, List.length_append, List.length_cons, List.length_nil]
          split <;> omega

theorem continuing_inv {p : Par K} {rs : List (Rec K E)} {s : State K E} (h : Continuing p rs s)
    (hr0 : 0 ≤ p.minImprovementRatio) (hr1 : p.minImprovementRatio ≤ 1) (hpos : ∀ r ∈ rs, 0 ≤ r.ae) :
    Inv p rs s := by
  induction h with
  | start => exact ⟨rfl, rfl, fun _ => ⟨rfl, rfl⟩, fun h => (h rfl).elim⟩
  | @next rs s s' r h ht ih =>
    have ih := ih (fun q hq => hpos q (by simp [hq]))
    rw [test_add] at ht
    split at ht
    · simp at ht
    · obtain ⟨good, hgood⟩ := ih.good r
      rw [hgood] at ht
      dsimp only at ht
      split at ht
      · simp at ht
      · cases ht
        exact ih.upd hr0 hr1 hpos hgood

end Mon

/-- **C36, giving up.** For every sequence of nonnegative errors: there is a reference step `g` (better
than all before, not beaten by the required factor since) such that the monitor answers "did not converge"
exactly when the documented conditions hold: not converged, at least `max 2 min_quit_iter` steps, and at
least `min_quit_no_improvement` steps since `g`. -/
theorem C36_giving_up (p : Par K) (rs : List (Rec K E)) (s : State K E) (r : Rec K E)
    (h : Continuing p rs s) (hr0 : 0 ≤ p.minImprovementRatio) (hr1 : p.minImprovementRatio ≤ 1)
    (hpos : ∀ q ∈ rs ++ [r], 0 ≤ q.ae) :
    ∃ s' a g, (s.add r.ae r.y r.e).test p = .ok (s', a) ∧ Reference p.minImprovementRatio (rs ++ [r]) g ∧
      (a = .didNotConverge ↔ ¬ WithinTol p r ∧ 2 ≤ rs.length + 1 ∧ p.minQuitIter ≤ rs.length + 1 ∧
        p.minQuitNoImprovement ≤ stepsSince (rs.length + 1) g) := by
  have hinv := continuing_inv h hr0 hr1 (fun q hq => hpos q (by simp [hq]))
  obtain ⟨good, hgood⟩ := hinv.good r
  have hinv' := hinv.upd hr0 hr1 hpos hgood
  obtain ⟨href, hn⟩ := hinv'.ref (by simp)
  have hlen : (rs ++ [r]).length = rs.length + 1 := by simp
  rw [hlen] at hn
  by_cases hw : WithinTol p r
  · refine ⟨{ s.add r.ae r.y r.e with converged := true }, .converged, (upd p s r good).lastGood, ?_, href,
      by simp [hw]⟩
    rw [test_add, if_pos hw]
  · rw [test_add, if_neg hw, hgood]
    dsimp only
    rw [hn, hinv.recs]
    by_cases hc : rs.length + 1 ≥ max 2 p.minQuitIter ∧
        stepsSince (rs.length + 1) (upd p s r good).lastGood ≥ p.minQuitNoImprovement
    · rw [if_pos hc]
      refine ⟨_, _, (upd p s r good).lastGood, rfl, href, ?_⟩
      simp only [hw, not_false_eq_true, true_and, true_iff]
      exact ⟨(le_max_left _ _).trans hc.1, (le_max_right _ _).trans hc.1, hc.2⟩
    · rw [if_neg hc]
      refine ⟨_, _, (upd p s r good).lastGood, rfl, href, ?_⟩
      simp only [hw, not_false_eq_true, true_and, reduceCtorEq, false_iff]
      rintro ⟨h1, h2, h3⟩
      exact hc ⟨max_le h1 h2, h3⟩

/-- Non-vacuity: errors 8, 6, 5, 5 with the default ratio 1/2 and giving up after two steps. -/
example : ∃ s : State ℚ Unit, Continuing ⟨0, 0, 4, 2, 1 / 2, false⟩ [⟨8, 1, ()⟩, ⟨6, 1, ()⟩, ⟨5, 1, ()⟩] s ∧
    ∃ s', (s.add 5 1 ()).test ⟨0, 0, 4, 2, 1 / 2, false⟩ = .ok (s', .didNotConverge) := by
  have h1 : Continuing (K := ℚ) ⟨0, 0, 4, 2, 1 / 2, false⟩ [⟨8, 1, ()⟩] ⟨[⟨8, 1, ()⟩], false, 1, 0⟩ :=
    .next (rs := []) (r := ⟨8, 1, ()⟩) .start (by decide +kernel)
  have h2 : Continuing (K := ℚ) ⟨0, 0, 4, 2, 1 / 2, false⟩ [⟨8, 1, ()⟩, ⟨6, 1, ()⟩]
      ⟨[⟨8, 1, ()⟩, ⟨6, 1, ()⟩], false, 2, 0⟩ :=
    .next (rs := [⟨8, 1, ()⟩]) (r := ⟨6, 1, ()⟩) h1 (by decide +kernel)
  have h3 : Continuing (K := ℚ) ⟨0, 0, 4, 2, 1 / 2, false⟩ [⟨8, 1, ()⟩, ⟨6, 1, ()⟩, ⟨5, 1, ()⟩]
      ⟨[⟨8, 1, ()⟩, ⟨6, 1, ()⟩, ⟨5, 1, ()⟩], false, 3, 0⟩ :=
    .next (rs := [⟨8, 1, ()⟩, ⟨6, 1, ()⟩]) (r := ⟨5, 1, ()⟩) h2 (by decide +kernel)
  exact ⟨_, h3, ⟨[⟨8, 1, ()⟩, ⟨6, 1, ()⟩, ⟨5, 1, ()⟩, ⟨5, 1, ()⟩], false, 4, 0⟩, by decide +kernel⟩

/-! ### the best result -/

namespace Mon

theorem bestLoop_spec (big decr : K) (hd : decr ≤ 1) : ∀ (rs : List (Rec K E)) (best : Rec K E)
    (pre : List (Rec K E)), (∀ q ∈ best :: rs, 0 ≤ relErr big q) →
    (∀ q ∈ pre, decr * relErr big best ≤ relErr big q) →
    (bestLoop big decr best rs = best ∨ bestLoop big decr best rs ∈ rs) ∧
    (∀ q ∈ pre ++ rs, decr * relErr big (bestLoop big decr best rs) ≤ relErr big q) ∧
    relErr big (bestLoop big decr best rs) ≤ relErr big best := by
  intro rs
  induction rs with
  | nil => intro best pre _ h; exact ⟨.inl rfl, by simpa [bestLoop] using h, le_rfl⟩
  | cons r rs ih =>
    intro best pre hpos hpre
    have hb := hpos best (by simp)
    have hr := hpos r (by simp)
    unfold bestLoop
    by_cases h : relErr big r < decr * relErr big best
    · rw [if_pos h]
      have hle : relErr big r ≤ relErr big best := by nlinarith
      obtain ⟨h1, h2, h3⟩ := ih r (pre ++ [r]) (fun q hq => hpos q (by
        rcases List.mem_cons.1 hq with rfl | hq
        · simp
        · simp [hq])) (by
        intro q hq
        rcases List.mem_append.1 hq with hq | hq
        · have := hpre q hq; nlinarith
        · simp at hq; subst hq; nlinarith)
      refine ⟨.inr ?_, by simpa using h2, h3.trans hle⟩
      rcases h1 with h1 | h1
      · rw [h1]; simp
      · exact List.mem_cons_of_mem _ h1
    · rw [if_neg h]
      obtain ⟨h1, h2, h3⟩ := ih best (pre ++ [r]) (fun q hq => hpos q (by
        rcases List.mem_cons.1 hq with rfl | hq
        · simp
        · simp [hq])) (by
        intro q hq
        rcases List.mem_append.1 hq with hq | hq
        · exact hpre q hq
        · simp at hq; subst hq; exact not_lt.1 h)
      refine ⟨?_, by simpa using h2, h3⟩
      rcases h1 with h1 | h1
      · exact .inl h1
      · exact .inr (List.mem_cons_of_mem _ h1)

end Mon

/-- **C36, best result.** The best result of a monitor with at least one record is one of the records
(value, error and extra data belong together): the last one if the monitor has converged, otherwise one
whose relative error is within the documented factor `err_decr` of every recorded relative error. -/
theorem C36_best (big decr : K) (hbig : 0 ≤ big) (hd : decr ≤ 1) (s : State K E)
    (hne : s.recs ≠ []) (hpos : ∀ q ∈ s.recs, 0 ≤ q.ae) :
    ∃ r ∈ s.recs, s.best big decr = .ok r ∧
      (s.converged = true → s.recs.getLast? = some r) ∧
      (s.converged = false → ∀ q ∈ s.recs, decr * relErr big r ≤ relErr big q) := by
  have hre : ∀ q ∈ s.recs, 0 ≤ relErr big q := by
    intro q hq
    unfold relErr
    split
    · exact hbig
    · exact div_nonneg (hpos q hq) (abs_nonneg _)
  unfold State.best
  cases hc : s.converged
  · cases hl : s.recs with
    | nil => exact (hne hl).elim
    | cons r rs =>
      rw [hl] at hre
      obtain ⟨h1, h2, h3⟩ := bestLoop_spec big decr hd rs r [] hre (by simp)
      refine ⟨_, ?_, rfl, by simp, fun _ q hq => ?_⟩
      · rcases h1 with h1 | h1
        · rw [h1]; simp
        · simp [h1]
      · rcases List.mem_cons.1 hq with rfl | hq
        · have := hre _ (List.mem_cons_self)
          have h0 : 0 ≤ relErr big (bestLoop big decr q rs) := by
            rcases h1 with h1 | h1
            · rw [h1]; exact this
            · exact hre _ (by simp [h1])
          nlinarith
        · exact h2 q (by simp [hq])
  · cases hl : s.recs.getLast? with
    | none => exact (hne (List.getLast?_eq_none_iff.1 hl)).elim
    | some r => exact ⟨r, List.mem_of_getLast? hl, by simp, fun _ => rfl, by simp⟩

/-- Asking an empty monitor for its best result raises `IndexError`. -/
theorem C36_best_empty (big decr : K) (s : State K E) (h : s.recs = []) :
    s.best big decr = .error .index := by
  unfold State.best
  rw [h]
  split <;> rfl

example : (⟨[⟨4, 1, ()⟩, ⟨2, 1, ()⟩, ⟨9 / 5, 1, ()⟩], false, 0, 0⟩ : State ℚ Unit).best 1000 (3 / 4)
    = .ok ⟨2, 1, ()⟩ := by decide +kernel

end Pacal
