import Verif.Cache.Model
import Mathlib.Logic.Relation

/-! What the representations of a distribution are, when nothing is kept. -/

namespace Pacal.Cache
variable {D R : Type}

/-- the objects whose densities the density of an object is computed from -/
def Init.parents : Init D → List ℕ
  | .atOnce ps _ => ps
  | .stepwise _ _ => []

/-- objects are built from objects that exist -/
def Built (W : ℕ → Init D) : Prop := ∀ i, ∀ p ∈ (W i).parents, p < i

/-- The representations by definition, without anything being kept: the density of every object follows from those of its
parents, or from its steps; the distribution function from the density; and so on. -/
structure ByDefinition (W : ℕ → Init D) (o : Ops D) (v : ℕ → Attr → Except PyErr D) : Prop where
  atOnce : ∀ i ps f, W i = .atOnce ps f → v i .pdf = (ps.mapM fun p => v p .pdf) >>= f
  stepwise : ∀ i first fs, W i = .stepwise first fs → v i .pdf = first >>= fun d => fs.foldlM (fun d f => f d) d
  cdf : ∀ i, v i .cdf = v i .pdf >>= o.cumint
  cdfInterp : ∀ i, v i .cdfInterp = v i .cdf >>= o.interp
  ccdf : ∀ i, v i .ccdf = v i .cdf >>= o.rsub
  ccdfInterp : ∀ i, v i .ccdfInterp = v i .ccdf >>= o.interp

/-- object `j` is used, directly or not, in computing the density of object `i` (`j = i` included) -/
def Uses (W : ℕ → Init D) : ℕ → ℕ → Prop := Relation.ReflTransGen fun i j => j ∈ (W i).parents

/-- once the first function of a density built in steps is assigned, none of the steps raises -/
def Init.NoBreak : Init D → Prop
  | .atOnce _ _ => True
  | .stepwise first fs => ∀ d, first = .ok d → ∃ d', fs.foldlM (fun d f => f d) d = .ok d'

/-- the answer to a question, given the representations -/
def Query.by (v : ℕ → Attr → Except PyErr D) : Query D R → Except PyErr R
  | .answer r => r
  | .read i a next => (next (v i a)).by v

/-- a question that, whatever it reads, reads from objects in `S` only -/
def Query.Within (S : ℕ → Prop) : Query D R → Prop
  | .answer _ => True
  | .read i _ next => S i ∧ ∀ r, (next r).Within S

/-- the question that reads one attribute -/
def Query.attr (i : ℕ) (a : Attr) : Query D D := .read i a fun r => .answer r

/-- a history in which questions are asked, and no stored density is changed -/
def OnlyAsked (h : List (Event D R)) : Prop := ∀ e ∈ h, ∃ q, e = .ask q

end Pacal.Cache
