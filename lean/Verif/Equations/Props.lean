import Verif.Equations.Lem

/-! C99: the equations of a variable. -/

namespace Pacal.Equations
variable {S : Type} [DecidableEq S] {isAtom : S → Bool}

/-- **C99**: every listed equation is that of a variable which `v` is computed from (or of `v`), and no expression is listed twice. -/
theorem C99_sound (v : Node S) : ((getEquations isAtom v).map Prod.fst).Nodup ∧
    ∀ a ∈ getEquations isAtom v, ∃ m, Uses v m ∧ isAtom m.sym = false ∧ a = (m.sym, m.name) :=
  ⟨collect_nodup v List.nodup_nil, fun _ ha => (collect_sound v ha).resolve_left List.not_mem_nil⟩

/-- **C99**: the expression of every variable which `v` is computed from is listed. -/
theorem C99_expressions {v m : Node S} (hu : Uses v m) (ha : isAtom m.sym = false) :
    m.sym ∈ (getEquations isAtom v).map Prod.fst := by
  obtain ⟨x, hx⟩ := collect_has hu ha []
  exact List.mem_map.2 ⟨_, hx, rfl⟩

/-- **C99**: the equation of every variable which `v` is computed from is listed, if different variables have different expressions. -/
theorem C99_complete_partial {v m : Node S} (hd : Distinct isAtom v) (hu : Uses v m) (ha : isAtom m.sym = false) :
    (m.sym, m.name) ∈ getEquations isAtom v := by
  obtain ⟨x, hx⟩ := collect_has hu ha []
  obtain ⟨m', hu', -, e⟩ := (collect_sound v hx).resolve_left List.not_mem_nil
  simp only [Prod.mk.injEq] at e
  rw [hd m m' hu hu' ha e.1, ← e.2]
  exact hx

/-- **C99**: the values of the names which solve the listed equations are exactly the consistent ones, if different variables have
different expressions. -/
theorem C99_solutions_partial {V : Type} (sem : S → (S → V) → V) {v : Node S} (hd : Distinct isAtom v) (E : S → V) :
    Solves sem (getEquations isAtom v) E ↔ Consistent isAtom sem v E := by
  constructor
  · exact fun h m hu ha => h _ (C99_complete_partial hd hu ha)
  · intro h a ha
    obtain ⟨m, hu, hm, rfl⟩ := (C99_sound v).2 a ha
    exact h m hu hm

/-- expressions for the examples: names, sums and products of names -/
inductive Ex
  | name (i : Nat) | sum (i j : Nat) | prod (i j : Nat)
  deriving DecidableEq

/-- `is_Atom` -/
def Ex.atomic : Ex → Bool
  | .name _ => true
  | _ => false

/-- the value of an expression -/
def Ex.sem : Ex → (Ex → Int) → Int
  | .name i, E => E (.name i)
  | .sum i j, E => E (.name i) + E (.name j)
  | .prod i j, E => E (.name i) * E (.name j)

/-- the variables X and Y -/
def X : Node Ex := .free (.name 0) (.name 0)
def Y : Node Ex := .free (.name 1) (.name 1)

/-- the hypotheses of `C99_solutions_partial` are met: W = (X+Y)*(X*Y) has three equations -/
example : getEquations Ex.atomic (.more (.prod 2 3) (.name 4) (.more (.sum 0 1) (.name 2) X Y) (.more (.prod 0 1) (.name 3) X Y)) =
    [(.prod 2 3, .name 4), (.sum 0 1, .name 2), (.prod 0 1, .name 3)] := by decide

example : Distinct Ex.atomic (.more (.prod 2 3) (.name 4) (.more (.sum 0 1) (.name 2) X Y) (.more (.prod 0 1) (.name 3) X Y)) := by
  have hX : ∀ m, Uses X m → m = X := fun m h => by cases h; rfl
  have hY : ∀ m, Uses Y m → m = Y := fun m h => by cases h; rfl
  intro m m' hu hu' ha he
  have key : ∀ m, Uses (.more (.prod 2 3) (.name 4) (.more (.sum 0 1) (.name 2) X Y) (.more (.prod 0 1) (.name 3) X Y)) m →
      m.name = (match m.sym with | .prod 2 3 => .name 4 | .sum 0 1 => .name 2 | .prod 0 1 => .name 3 | s => s) := by
    intro m h
    cases h with
    | self => rfl
    | left h => cases h with
      | self => rfl
      | left h => rw [hX m h]; rfl
      | right h => rw [hY m h]; rfl
    | right h => cases h with
      | self => rfl
      | left h => rw [hX m h]; rfl
      | right h => rw [hY m h]; rfl
  rw [key m hu, key m' hu', he]

/-- **C99** is violated when two variables have the same expression, for instance U = X+Y, V = X+Y and W = U*V: the equation of V is not
listed, and the listed equations are solved by values for which V is not X+Y. -/
theorem C99_violated_same : let v : Node Ex := .more (.prod 2 3) (.name 4) (.more (.sum 0 1) (.name 2) X Y) (.more (.sum 0 1) (.name 3) X Y)
    getEquations Ex.atomic v = [(.prod 2 3, .name 4), (.sum 0 1, .name 2)] ∧
      ∃ E : Ex → Int, Solves Ex.sem (getEquations Ex.atomic v) E ∧ ¬ Consistent Ex.atomic Ex.sem v E := by
  intro v
  have e : getEquations Ex.atomic v = [(.prod 2 3, .name 4), (.sum 0 1, .name 2)] := by decide
  refine ⟨e, fun s => if s = .name 3 then 7 else 0, ?_, fun h => ?_⟩
  · rw [e]
    intro a ha
    simp only [List.mem_cons, List.not_mem_nil, or_false] at ha
    rcases ha with rfl | rfl <;> simp [Ex.sem]
  · have := h (.more (.sum 0 1) (.name 3) X Y) (.right (.self _)) rfl
    simp [Node.name, Node.sym, Ex.sem] at this

end Pacal.Equations
