import Verif.Graph.Model
import Mathlib.Logic.Relation

/-! Specification notions for the object graph, independent of the traversals of the code. -/

namespace Pacal
namespace Graph
variable {V : Type}

/-- `j` is a direct parent of `i` -/
def Parent (h : Heap V) (i j : ℕ) : Prop := ∃ n, h[i]? = some n ∧ j ∈ n.parents

/-- `j` is an ancestor of `i` (or `i` itself) -/
def Anc (h : Heap V) : ℕ → ℕ → Prop := Relation.ReflTransGen (Parent h)

/-- `j` is an argument of the operation `i` -/
def Arg (h : Heap V) (i j : ℕ) : Prop := ∃ n f, h[i]? = some n ∧ n.kind = .op f ∧ j ∈ n.args

/-- `j` occurs in the expression `i` -/
def Occurs (h : Heap V) : ℕ → ℕ → Prop := Relation.ReflTransGen (Arg h)

/-- every object refers only to objects created before it -/
def WF (h : Heap V) : Prop :=
  ∀ (i : ℕ) (n : Node V), h[i]? = some n → (∀ p ∈ n.parents, p < i) ∧ (∀ p ∈ n.args, p < i)

/-- Value of an expression for an assignment `env` of values to the underlying (raw) variables. -/
inductive Ev (h : Heap V) (env : ℕ → V) : ℕ → V → Prop
  | raw {i : ℕ} {n : Node V} : h[i]? = some n → n.kind = .raw → Ev h env i (env i)
  | op {i : ℕ} {n : Node V} {f : List V → V} {vs : List V} : h[i]? = some n → n.kind = .op f → List.Forall₂ (Ev h env) n.args vs → Ev h env i (f vs)

end Graph
end Pacal
