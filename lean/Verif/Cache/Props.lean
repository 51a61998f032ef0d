import Verif.Cache.Lem
import Verif.Cache.LemEx
import Verif.Cache.ModelSteps

/-!
C97: what a distribution answers does not depend on what was asked before.

A distribution computes its density, its distribution function, the complement and their interpolated versions on the
first request and keeps them.  `ByDefinition` (`Spec.lean`) says what these are when nothing is kept.
-/

namespace Pacal.Cache
variable {D R : Type} {W : ℕ → Init D} {o : Ops D} {v : ℕ → Attr → Except PyErr D}

/-- C97: after any history of questions, to any of the distributions and successful or not, every question is answered as
by definition, the exceptions included.  Partial: the distributions that the question reads, and those they are computed
from, must not break off in the middle of building a density (`NoBreak`); see `C97_violated_once`. -/
theorem C97_history_partial (hW : Built W) (hv : ByDefinition W o v) (h : List (Event D R)) (hh : OnlyAsked h)
    (q : Query D R) (hq : q.Within fun i => ∀ j, Uses W i j → (W j).NoBreak) :
    (ask W o q (run W o h State.fresh)).1 = q.by v :=
  (ask_right hW hv q _ (run_inv hW hv h _ hh inv_fresh)).2 hq

/-- C97: there are always representations by definition, so the answers are the same after any two histories. -/
theorem C97_order_partial (hW : Built W) (o : Ops D) (h h' : List (Event D R)) (hh : OnlyAsked h) (hh' : OnlyAsked h')
    (q : Query D R) (hq : q.Within fun i => ∀ j, Uses W i j → (W j).NoBreak) :
    (ask W o q (run W o h State.fresh)).1 = (ask W o q (run W o h' State.fresh)).1 := by
  obtain ⟨v, hv⟩ := byDefinition_exists hW o
  rw [C97_history_partial hW hv h hh q hq, C97_history_partial hW hv h' hh' q hq]

/-- C97: for all distributions, a representation that was returned once is returned ever after, whatever is asked. -/
theorem C97_stays (hW : Built W) (o : Ops D) (h : List (Event D R)) (hh : OnlyAsked h) (s : State D) (i : ℕ) (a : Attr)
    {d : D} (hd : (ask W o (.attr i a) s).1 = .ok d) :
    (ask W o (.attr i a) (run W o h (ask W o (.attr i a) s).2)).1 = .ok d := by
  have h1 : ((getAttr W o i a s).2 i).get a = some d := getAttr_kept hd
  have h2 := run_later hW o h _ hh i a d h1
  show (getAttr W o i a (run W o h (getAttr W o i a s).2)).1 = _
  rw [getAttr_of_kept h2]

/-- C97, instances: a discrete distribution breaks off exactly when its density cannot be built; when it can, the density
by definition is the one of `discretePF`. -/
theorem C97_discrete (eps : ℝ) (t : List (ℝ × ℝ)) :
    ((discrete eps t).NoBreak ↔ (discretePF eps t).isSome) ∧
      ∀ (W : ℕ → Init (PF ℝ)) (o : Ops (PF ℝ)) (v : ℕ → Attr → Except PyErr (PF ℝ)), ByDefinition W o v →
        ∀ i, W i = discrete eps t → ∀ F, discretePF eps t = some F → v i .pdf = .ok F := by
  have key := steps_discrete eps t
  refine ⟨⟨fun h => ?_, fun h d hd => ?_⟩, fun W o v hv i hi F hF => ?_⟩
  · obtain ⟨d', hd'⟩ := h [] rfl
    rw [key] at hd'
    rcases e : discretePF eps t with _ | F
    · rw [e] at hd'; cases hd'
    · rfl
  · obtain ⟨F, hF⟩ := Option.isSome_iff_exists.1 h
    cases hd
    exact ⟨F, by rw [key, hF]; rfl⟩
  · rw [hv.stepwise i _ _ hi]
    show List.foldlM _ _ _ = _
    rw [key, hF]
    rfl

/-- C97 is violated when building a density breaks off: the exception is raised only once.  If the first function was
assigned and a later step raises `e`, then the first request raises `e` and every later one returns, as if nothing had
happened, the function built so far. -/
theorem C97_violated_once (W : ℕ → Init D) (hW : Built W) (o : Ops D) (i : ℕ) {d : D} {done rest : List (D → Except PyErr D)}
    {f : D → Except PyErr D} {d' : D} {e : PyErr} (hi : W i = .stepwise (.ok d) (done ++ f :: rest))
    (hd : done.foldlM (fun d f => f d) d = .ok d') (hf : f d' = .error e) (h : List (Event D R)) (hh : OnlyAsked h) :
    (ask W o (.attr i .pdf) State.fresh).1 = .error e ∧
      (ask W o (.attr i .pdf) (run W o h (ask W o (.attr i .pdf) State.fresh).2)).1 = .ok d' := by
  have hr := runSteps_break hd hf (rest := rest)
  have h1 : getAttr W o i .pdf State.fresh = (.error e, State.fresh.put i .pdf d') := by
    show getPdf W (i + 1) i State.fresh = _
    unfold getPdf
    have hn : ((State.fresh : State D) i).pdf = none := rfl
    simp only [hn, hi, hr]
  refine ⟨?_, ?_⟩
  · show (getAttr W o i .pdf State.fresh).1 = _
    rw [h1]
  · have h2 : ((State.fresh.put i .pdf d' : State D) i).get .pdf = some d' := by rw [put_get, if_pos ⟨rfl, rfl⟩]
    have h3 := run_later hW o h _ hh i .pdf d' h2
    show (getAttr W o i .pdf (run W o h (getAttr W o i .pdf State.fresh).2)).1 = _
    rw [h1, getAttr_of_kept h3]

/-- C97 is violated by a discrete distribution with a repeated point, `DiscreteDistr([0, 0, 1], [0.2, 0.3, 0.5])`: the
first request for its density raises `AssertionError` and every later one returns two atoms with nothing between them. -/
theorem C97_violated_discrete (W : ℕ → Init (PF ℝ)) (hW : Built W) (o : Ops (PF ℝ)) (i : ℕ) {eps : ℝ} (he : 0 ≤ eps)
    (he1 : eps < 1) (hi : W i = discrete eps [(0, 1 / 5), (0, 3 / 10), (1, 1 / 2)])
    (h : List (Event (PF ℝ) (PF ℝ))) (hh : OnlyAsked h) :
    (ask W o (.attr i .pdf) State.fresh).1 = .error .assertion ∧
      (ask W o (.attr i .pdf) (run W o h (ask W o (.attr i .pdf) State.fresh).2)).1
        = .ok [Seg.dirac 0 (1 / 2), Seg.dirac 1 (1 / 2)] :=
  C97_violated_once W hW o i (done := [addStep eps (.dirac 0 (1 / 5)), addStep eps (.dirac 0 (3 / 10)),
    addStep eps (.dirac 1 (1 / 2))]) (rest := [addStep eps (.const 0 1 0)]) (f := addStep eps (.const 0 0 0))
    (hi.trans (discrete_twice eps)) (twice_done he he1) twice_break h hh

/-- C97 is violated by `PDistr()` without segments: the first request raises `TypeError` and every later one returns the
empty density. -/
theorem C97_violated_empty (W : ℕ → Init (PF ℝ)) (hW : Built W) (o : Ops (PF ℝ)) (i : ℕ) (hi : W i = noPieces)
    (h : List (Event (PF ℝ) (PF ℝ))) (hh : OnlyAsked h) :
    (ask W o (.attr i .pdf) State.fresh).1 = .error .typ ∧
      (ask W o (.attr i .pdf) (run W o h (ask W o (.attr i .pdf) State.fresh).2)).1 = .ok [] :=
  C97_violated_once W hW o i (done := []) (rest := []) hi rfl rfl h hh

/-- C97 is violated by `FunDistr` when the interpolation raises: the first request raises and every later one returns the
function that is not interpolated. -/
theorem C97_violated_given (W : ℕ → Init D) (hW : Built W) (o : Ops D) (i : ℕ) (f : D) {e : PyErr} (hf : o.interp f = .error e)
    (hi : W i = given f o.interp) (h : List (Event D R)) (hh : OnlyAsked h) :
    (ask W o (.attr i .pdf) State.fresh).1 = .error e ∧
      (ask W o (.attr i .pdf) (run W o h (ask W o (.attr i .pdf) State.fresh).2)).1 = .ok f :=
  C97_violated_once W hW o i (done := []) (rest := []) hi rfl hf h hh

/-- What is kept is handed out itself, not a copy, and nothing is computed anew after it was changed: if a program asks for
the distribution function of `i` and then changes in place the density that was returned to it, then the density is the
changed one and the distribution function is still the one of the old density. -/
theorem C97_finding_changed (W : ℕ → Init D) (o : Ops D) (i : ℕ) (g : D → D) (s : State D) {d c : D}
    (hd : (ask W o (.attr i .pdf) s).1 = .ok d)
    (hc : (ask W o (.attr i .cdf) (ask W o (.attr i .pdf) s).2).1 = .ok c) :
    let s' := run W o [.ask (.attr i .pdf), .ask (.attr i .cdf), .change i g] s
    (ask W o (.attr i .pdf) s').1 = .ok (g d) ∧ (ask W o (.attr i .cdf) s').1 = .ok c := by
  intro s'
  have h1 : ((getAttr W o i .pdf s).2 i).get .pdf = some d := getAttr_kept hd
  have h2 : ((getAttr W o i .cdf (getAttr W o i .pdf s).2).2 i).get .cdf = some c := getAttr_kept hc
  have h3 : ((getAttr W o i .cdf (getAttr W o i .pdf s).2).2 i).get .pdf = some d := cdf_keeps_pdf h1
  have hs' : s' = (getAttr W o i .cdf (getAttr W o i .pdf s).2).2.put i .pdf (g d) := by
    show step W o (getAttr W o i .cdf (getAttr W o i .pdf s).2).2 (.change i g : Event D D) = _
    have h3' : ((getAttr W o i .cdf (getAttr W o i .pdf s).2).2 i).pdf = some d := h3
    unfold step
    simp only [h3']
  have e1 : (s' i).get .pdf = some (g d) := by rw [hs', put_get, if_pos ⟨rfl, rfl⟩]
  have e2 : (s' i).get .cdf = some c := by rw [hs', put_get, if_neg (by simp)]; exact h2
  exact ⟨by show (getAttr W o i .pdf s').1 = _; rw [getAttr_of_kept e1],
    by show (getAttr W o i .cdf s').1 = _; rw [getAttr_of_kept e2]⟩

/-! ### examples -/

/-- four objects: two given densities, one computed from both, and one that fails: no interpolation of 7 -/
def exW : ℕ → Init ℕ
  | 0 => .stepwise (.ok 0) [fun d => .ok (d + 1), fun d => .ok (d + 2)]
  | 1 => .stepwise (.error .value) []
  | 2 => .atOnce [0, 0] fun ds => .ok ds.sum
  | 3 => .atOnce [2, 1] fun ds => .ok ds.sum
  | _ => .stepwise (.ok 7) []

/-- operations that can be told apart -/
def exOps : Ops ℕ where
  cumint d := .ok (10 * d)
  interp d := if d = 70 then .error .zeroDivision else .ok (d + 1)
  rsub d := .ok (1000 - d)

theorem exW_built : Built exW := by
  intro i p hp
  match i with
  | 0 => cases hp
  | 1 => cases hp
  | 2 => simp [exW, Init.parents] at hp; omega
  | 3 => simp [exW, Init.parents] at hp; omega
  | n + 4 => cases hp

theorem exW_noBreak (j : ℕ) : (exW j).NoBreak := by
  match j with
  | 0 => intro d hd; cases hd; exact ⟨3, rfl⟩
  | 1 => intro d hd; cases hd
  | 2 => trivial
  | 3 => trivial
  | n + 4 => intro d hd; cases hd; exact ⟨7, rfl⟩

/-- the hypotheses of `C97_order_partial` hold, and the answers are values as well as exceptions -/
example : (Query.attr 2 .ccdfInterp : Query ℕ ℕ).Within (fun i => ∀ j, Uses exW i j → (exW j).NoBreak) :=
  ⟨fun j _ => exW_noBreak j, fun _ => trivial⟩

example : let h : List (Event ℕ ℕ) := [.ask (.attr 3 .pdf), .ask (.attr 4 .cdfInterp), .ask (.attr 0 .cdf)]
    OnlyAsked h ∧ (ask exW exOps (.attr 2 .ccdfInterp) (run exW exOps h State.fresh)).1 = .ok 941 ∧
      (ask exW exOps (.attr 3 .cdf) (run exW exOps h State.fresh)).1 = .error .value ∧
      (ask exW exOps (.attr 4 .cdfInterp) (run exW exOps h State.fresh)).1 = .error .zeroDivision := by
  refine ⟨?_, rfl, rfl, rfl⟩
  intro e he
  simp at he
  rcases he with rfl | rfl | rfl <;> exact ⟨_, rfl⟩

/-- the hypotheses of `C97_violated_discrete` can be met -/
example : ∃ W : ℕ → Init (PF ℝ), Built W ∧ W 0 = discrete (1 / 10) [(0, 1 / 5), (0, 3 / 10), (1, 1 / 2)] :=
  ⟨fun _ => discrete (1 / 10) [(0, 1 / 5), (0, 3 / 10), (1, 1 / 2)], fun _ _ h => (by cases h), rfl⟩

end Pacal.Cache
