import Verif.Alias.LemCareful
import Mathlib.Algebra.Order.Ring.Rat

/-!
C96: building or extending one piecewise function or distribution never changes another one.

Full statement: after every history of actions each function has the pieces given by the value semantics `idealRun`, in which an action
changes only the function it is applied to.  The program violates it: all distributions `PDistr(list)` share one list, an interpolated
copy shares the atoms of its original, and an atom added to two functions is shared by them.  Proved: it holds for histories in which functions
are created with `PiecewiseFunction([])` or by computations and no piece is added twice (`C96_careful`), and more generally as
long as only functions that share nothing are extended (`C96_apart_partial`).
-/

namespace Pacal
namespace Alias
variable {K : Type*} [Field K] [LinearOrder K]

/-- Functions are created as `PiecewiseFunction([])` or computed from others, every piece is added once: whatever else is created,
extended or computed in between, every function has exactly the pieces that result from the actions on it. -/
theorem C96_careful (eps : K) {cs : List (Cmd K)} (h : Careful cs) (f : ℕ) :
    (run eps State.start cs).pieces f = (idealRun eps Values.start cs).get f :=
  (good_run eps good_start (careful_apart eps good_start (own_start fun _ => False) h fun _ _ hs => hs)).pieces f

/-- All actions, as long as only functions that share nothing with others are extended. -/
theorem C96_apart_partial (eps : K) {cs : List (Cmd K)} (h : AllApart eps State.start cs) (f : ℕ) :
    (run eps State.start cs).pieces f = (idealRun eps Values.start cs).get f :=
  (good_run eps good_start h).pieces f

/-- one function is extended while others are created: two uniform densities and their shifted sum -/
example : let cs : List (Cmd ℚ) := [.fromList [], .fromList [], .piece (.const 0 1 1), .piece (.dirac 0 (1/2)), .add 0 0, .add 1 1,
      .compute (fun ls => ls.flatten) [0, 1], .piece (.dirac 0 (1/4)), .add 1 2]
    Careful cs ∧ ((run (1/1000) State.start cs).pieces 2).map (List.map Seg.mass) = some [1/2, 0] ∧
      ((run (1/1000) State.start cs).pieces 1).map (List.map Seg.mass) = some [3/4] := by
  refine ⟨⟨by decide, fun c hc => ?_⟩, by decide +kernel, by decide +kernel⟩
  fin_cases hc <;> simp

/-- the first distribution built from a list of pieces, its interpolated copy, and atoms taken over from a function, are within the scope of
`C96_apart_partial` -/
example : let cs : List (Cmd ℚ) := [.piece (.const 0 1 1), .pdistr [0], .interpolated id 0, .fromList [], .piece (.dirac 0 (1/2)), .add 2 1,
      .addDiracs 1 2]
    AllApart (1/1000) State.start cs ∧ ((run (1/1000) State.start cs).pieces 1).map (List.map Seg.mass) = some [1/2, 0] := by
  intro cs
  have g1 := good_step (good_start (K := ℚ)) (1/1000) (c := .piece (.const 0 1 1)) trivial
  have a2 : Apart (step (1/1000) State.start (.piece (.const (0 : ℚ) 1 1))) (.pdistr [0]) := by
    refine ⟨rfl, fun f => ?_, by simp, fun s _ => unused_of g1 (by simp [step, State.start, Heap.start, Heap.alloc])⟩
    simp [State.list, step, State.start]
  have g2 := good_step g1 (1/1000) a2
  have a3 : Apart (step (1/1000) (step (1/1000) State.start (.piece (.const (0 : ℚ) 1 1))) (.pdistr [0])) (.interpolated id 0) := by
    intro l hl
    have : ((step (1/1000) (step (1/1000) State.start (.piece (.const (0 : ℚ) 1 1))) (.pdistr [0])).pieces 0).all
        (fun l => l.diracs.isEmpty) = true := by decide +kernel
    rw [hl] at this
    simpa using this
  have g3 := good_step g2 (1/1000) a3
  have g4 := good_step g3 (1/1000) (c := .fromList []) trivial
  have g5 := good_step g4 (1/1000) (c := .piece (.dirac 0 (1/2))) trivial
  refine ⟨⟨trivial, a2, a3, trivial, trivial, ⟨alone_of ?_, unused_of g5 ?_⟩, ⟨by decide, alone_of ?_, alone_of ?_⟩, trivial⟩, ?_⟩ <;>
    decide +kernel

/-- `PDistr(segs)` calls `PiecewiseDistribution()` (standard_distr.py:59), whose default argument `segments = []` is one list for all calls
(segments.py:998): after any history, two distributions built from lists of pieces have the same pieces. -/
theorem C96_violated_pdistr_shared (eps : K) (cs : List (Cmd K)) (ss ss' : List ℕ) :
    let st := run eps State.start (cs ++ [.pdistr ss, .pdistr ss'])
    let n := (run eps State.start cs).funs.length
    st.list n = some 0 ∧ st.list (n + 1) = some 0 ∧ st.pieces n = st.pieces (n + 1) := by
  simp only [run, List.foldl_append, List.foldl_cons, List.foldl_nil]
  generalize List.foldl (step eps) State.start cs = s0
  have h1 : (step eps (step eps s0 (.pdistr ss)) (.pdistr ss')).list s0.funs.length = some 0 := by
    simp [State.list, step]
  have h2 : (step eps (step eps s0 (.pdistr ss)) (.pdistr ss')).list (s0.funs.length + 1) = some 0 := by
    simp [State.list, step]
  exact ⟨h1, h2, by rw [State.pieces, State.pieces, h1, h2]⟩

/-- the ends of the pieces of a function -/
def ends (l : PF ℚ) : List (Ext ℚ × Ext ℚ) := l.map fun s => (s.lo, s.hi)

/-- Two uniform distributions built as `PDistr([ConstSegment(0, 1, 1)])` and `PDistr([ConstSegment(2, 3, 1)])`: the first one changes when
the second one is built, and both have both pieces (so the total probability is 2). -/
theorem C96_violated_pdistr :
    let cs : List (Cmd ℚ) := [.piece (.const 0 1 1), .pdistr [0], .piece (.const 2 3 1)]
    ((run (1/10^14) State.start cs).pieces 0).map ends = some [(.fin 0, .fin 1)] ∧
    ((run (1/10^14) State.start (cs ++ [.pdistr [1]])).pieces 0).map ends = some [(.fin 0, .fin 1), (.fin 2, .fin 3)] ∧
    ((run (1/10^14) State.start (cs ++ [.pdistr [1]])).pieces 1).map ends = some [(.fin 0, .fin 1), (.fin 2, .fin 3)] ∧
    ((idealRun (1/10^14) Values.start (cs ++ [.pdistr [1]])).get 0).map ends = some [(.fin 0, .fin 1)] ∧
    ((idealRun (1/10^14) Values.start (cs ++ [.pdistr [1]])).get 1).map ends = some [(.fin 2, .fin 3)] := by
  intro cs
  refine ⟨?_, ?_, ?_, ?_, ?_⟩ <;> decide +kernel

/-- `PDistr([Segment(0, 1, lambda x: 2 * x)])` after `PDistr([ConstSegment(0, 1, 1)])`: the piece cannot be added to the shared list
(AssertionError, segments.py:1098), and the second distribution has the density of the first one (1 instead of 1/2 at 1/4). -/
theorem C96_violated_pdistr_overlap :
    let cs : List (Cmd ℚ) := [.piece (.const 0 1 1), .pdistr [0], .piece (.fin .none 0 1 fun x => 2 * x), .pdistr [1]]
    ((run (1/10^14) State.start cs).pieces 1).map (List.map fun s => s.fn (1/4)) = some [1] ∧
    ((idealRun (1/10^14) Values.start cs).get 1).map (List.map fun s => s.fn (1/4)) = some [1/2] := by
  decide +kernel

/-- The pieces stay in the shared list after the distribution is not used any more. -/
theorem C96_violated_pdistr_forgotten :
    let cs : List (Cmd ℚ) := [.piece (.const 0 1 1), .pdistr [0], .forget 0, .piece (.const 2 3 1), .pdistr [1]]
    ((run (1/10^14) State.start cs).pieces 1).map ends = some [(.fin 0, .fin 1), (.fin 2, .fin 3)] := by
  decide +kernel

/-- An interpolated copy shares the atoms of its original (`DiracSegment.toInterpolatedSegment` returns `self`, segments.py:710-711): an
atom added to the copy changes the original. -/
theorem C96_violated_interpolated :
    let cs : List (Cmd ℚ) := [.fromList [], .piece (.dirac 0 (1/2)), .add 0 0, .interpolated id 0, .piece (.dirac 0 (1/4)), .add 1 1]
    ((run (1/10^14) State.start cs).pieces 0).map (List.map Seg.mass) = some [3/4] ∧
    ((idealRun (1/10^14) Values.start cs).get 0).map (List.map Seg.mass) = some [1/2] := by
  decide +kernel

/-- An atom added to two functions is shared by them: a third atom added to one of them at the same place changes both
(segments.py:1091). -/
theorem C96_violated_same_atom :
    let cs : List (Cmd ℚ) := [.fromList [], .fromList [], .piece (.dirac 0 (1/2)), .add 0 0, .add 1 0, .piece (.dirac 0 (1/4)), .add 0 1]
    ((run (1/10^14) State.start cs).pieces 1).map (List.map Seg.mass) = some [3/4] ∧
    ((idealRun (1/10^14) Values.start cs).get 1).map (List.map Seg.mass) = some [1/2] := by
  decide +kernel

/-- `PiecewiseFunction(segments)` with a nonempty list of pieces always ends with an IndexError (segments.py:1058). -/
theorem C96_finding_fromList (eps : K) (st : State K) {ss : List ℕ} (h : ss ≠ []) :
    (step eps st (.fromList ss)).pieces st.funs.length = none := by
  simp [step, h, State.pieces, State.list]

end Alias
end Pacal
