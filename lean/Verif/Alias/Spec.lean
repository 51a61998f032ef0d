import Verif.Alias.Model
import Verif.Conv.MinMaxModel

/-!
Specification for C96: what a history of actions should do.  Every function is a value, the list of the pieces that were added to it; an
action changes only the function it is applied to.
-/

namespace Pacal
namespace Alias
variable {K : Type*} [Field K] [LinearOrder K]

/-- the pieces as they were created and the functions as lists of pieces (`none`: not constructed, or not used any more) -/
structure Values (K : Type*) where
  segs : List (Seg K)
  funs : List (Option (PF K))

/-- nothing was created -/
def Values.start : Values K := ⟨[], []⟩

/-- the pieces `ss` are added one after another until one cannot be added -/
def addWhile (eps : K) (l : PF K) : List (Seg K) → PF K
  | [] => l
  | s :: ss =>
    match PF.addSegment eps l s with
    | none => l
    | some l' => addWhile eps l' ss

/-- the function `f` -/
def Values.get (v : Values K) (f : ℕ) : Option (PF K) := (v.funs[f]?).join

/-- what an action should do -/
def ideal (eps : K) (v : Values K) : Cmd K → Values K
  | .piece s => ⟨v.segs ++ [s], v.funs⟩
  | .fromList ss => ⟨v.segs, v.funs ++ [if ss = [] then some [] else none]⟩
  | .blank => ⟨v.segs, v.funs ++ [some []]⟩
  | .add f s =>
    match v.get f, v.segs[s]? with
    | some l, some t => ⟨v.segs, v.funs.set f (some ((PF.addSegment eps l t).getD l))⟩
    | _, _ => v
  | .addDiracs f g =>
    match v.get f, v.get g with
    | some l, some l' =>
      match Conv.addDiracs eps l l' with
      | some r => ⟨v.segs, (v.funs.set f (some r)).set g none⟩
      | none => ⟨v.segs, (v.funs.set f none).set g none⟩
    | _, _ => v
  | .interpolated I f =>
    ⟨v.segs, v.funs ++ [(v.get f).bind fun l => PF.addAll eps [] (l.map fun s => if s.isDirac then s else I s)]⟩
  | .compute F fs => ⟨v.segs, v.funs ++ [PF.addAll eps [] (F (fs.filterMap v.get))]⟩
  | .pdistr ss => ⟨v.segs, v.funs ++ [some (addWhile eps [] (ss.filterMap fun s => v.segs[s]?))]⟩
  | .forget f => ⟨v.segs, v.funs.set f none⟩

/-- what a history should do -/
def idealRun (eps : K) (v : Values K) (cs : List (Cmd K)) : Values K := cs.foldl (ideal eps) v

/-- no other function that is still in use has the list of `f` or one of the atoms of `f` -/
def Alone (st : State K) (f : ℕ) : Prop :=
  ∀ L, st.list f = some L → ∀ g L', g ≠ f → st.list g = some L' →
    L' ≠ L ∧ ∀ r ∈ st.heap.lists L, (st.heap.segs r).isDirac = true → r ∉ st.heap.lists L'

/-- the piece `s` is continuous, or it is an atom that was not added to any function yet -/
def Unused (st : State K) (s : ℕ) : Prop :=
  ∀ r, st.names[s]? = some r → (st.heap.segs r).isDirac = true → ∀ L, r ∉ st.heap.lists L

/-- Actions that keep functions apart: a function is extended only if it shares nothing with others, with pieces not used elsewhere; a
function is created without a list of pieces only once, and copied only if it has no atoms; when atoms are
taken over from another function, that function shares nothing either. -/
def Apart (st : State K) : Cmd K → Prop
  | .piece _ => True
  | .fromList _ => True
  | .blank => st.heap.lists 0 = []
  | .add f s => Alone st f ∧ Unused st s
  | .addDiracs f g => f ≠ g ∧ Alone st f ∧ Alone st g
  | .interpolated _ f => ∀ l, st.pieces f = some l → l.diracs = []
  | .compute _ _ => True
  | .pdistr ss => st.heap.lists 0 = [] ∧ (∀ f, st.list f ≠ some 0) ∧ ss.Nodup ∧ ∀ s ∈ ss, Unused st s
  | .forget _ => True

/-- every action of the history keeps the functions apart, in the state in which it is done -/
def AllApart (eps : K) : State K → List (Cmd K) → Prop
  | _, [] => True
  | st, c :: cs => Apart st c ∧ AllApart eps (step eps st c) cs

/-- the pieces that are added to functions -/
def added : List (Cmd K) → List ℕ
  | [] => []
  | .add _ s :: cs => s :: added cs
  | _ :: cs => added cs

/-- Histories written with care: functions are created with `PiecewiseFunction([])` or computed from others, and every piece is
added to one function once. -/
def Careful (cs : List (Cmd K)) : Prop :=
  (added cs).Nodup ∧ ∀ c ∈ cs, (∃ s, c = .piece s) ∨ (∃ ss, c = .fromList ss) ∨ (∃ f s, c = .add f s) ∨
    (∃ F fs, c = .compute F fs) ∨ ∃ f, c = .forget f

end Alias
end Pacal
