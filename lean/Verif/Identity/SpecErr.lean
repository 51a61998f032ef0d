import Verif.Identity.ModelErr
import Verif.Identity.Spec

/-!
Specification: distance of densities and of laws, and how much error an expression may have.
-/

namespace Pacal.Identity
open MeasureTheory

/-- the probabilities of all events differ by at most `ε` -/
def Within (ε : ℝ) (μ ν : Measure ℝ) : Prop := ∀ S, MeasurableSet S → |μ.real S - ν.real S| ≤ ε

/-- the second piece stands at the same place as the first; atoms and constant pieces are kept -/
inductive Redrawn : Seg ℝ → Seg ℝ → Prop
  | fin (p p' : Pole) (a b : ℝ) (f f' : ℝ → ℝ) : Redrawn (.fin p a b f) (.fin p' a b f')
  | minf (b : ℝ) (f f' : ℝ → ℝ) : Redrawn (.minf b f) (.minf b f')
  | pinf (a : ℝ) (f f' : ℝ → ℝ) : Redrawn (.pinf a f) (.pinf a f')
  | same (s : Seg ℝ) : Redrawn s s

/-- At every node `e` the density is replaced by an approximation of accuracy `δ e`: the pieces stay where they are, and for a density
of total mass at most 2 the new one is nonnegative and integrable, and the area between the two is at most `δ e`. -/
structure Accurate (M : Machine) (replace : Expr → PF ℝ → PF ℝ) (δ : Expr → ℝ) : Prop where
  pieces : ∀ e l, List.Forall₂ Redrawn l (replace e l)
  dens : ∀ e l, PF.WF M.env.eps l → PF.Dens l → (PF.law l).real Set.univ ≤ 2 → PF.Dens (replace e l)
  area : ∀ e l, PF.WF M.env.eps l → PF.Dens l → (PF.law l).real Set.univ ≤ 2 → ∫ x, |(replace e l).val x - l.val x| ≤ δ e

/-- the error of an expression in terms of the errors committed at its nodes: the errors of the arguments, which are multiplied only
with each other, and the error of the last operation -/
def bound (δ : Expr → ℝ) : Expr → ℝ
  | .dist k => δ (.dist k)
  | .discrete t => δ (.discrete t)
  | .step s e => bound δ e + δ (.step s e)
  | .add a b => (1 + bound δ a) * (1 + bound δ b) - 1 + δ (.add a b)
  | .sub a b => (1 + bound δ a) * (1 + bound δ b) - 1 + δ (.sub a b)
  | .mul a b => (1 + bound δ a) * (1 + bound δ b) - 1 + δ (.mul a b)
  | .div a b => (1 + bound δ a) * (1 + bound δ b) - 1 + δ (.div a b)
  | .min a b => (1 + bound δ a) * (1 + bound δ b) - 1 + δ (.min a b)
  | .max a b => (1 + bound δ a) * (1 + bound δ b) - 1 + δ (.max a b)

/-- the number of nodes of an expression -/
def nodes : Expr → ℕ
  | .dist _ | .discrete _ => 1
  | .step _ e => nodes e + 1
  | .add a b | .sub a b | .mul a b | .div a b | .min a b | .max a b => nodes a + nodes b + 1

/-- The conditions of `ExprOK` for the densities that are really computed. -/
def NodesOK (M : Machine) (replace : Expr → PF ℝ → PF ℝ) : Expr → Prop
  | .dist k => k.Valid ∧ Exact k
  | .discrete t => TableOK M.env.eps t
  | .step s e => NodesOK M replace e ∧ ∀ l, e.runWith M replace = some l → ContPF l ∧ StepOK (PosPF l) s
  | .add a b => NodesOK M replace a ∧ NodesOK M replace b ∧ ∀ f g, a.runWith M replace = some f → b.runWith M replace = some g →
      f.NoHole ∧ g.NoHole ∧ Apart (· + ·) (Max.max M.par.brkEps M.par.eps) f g
  | .sub a b => NodesOK M replace a ∧ NodesOK M replace b ∧ ∀ f g, a.runWith M replace = some f → b.runWith M replace = some g →
      f.NoHole ∧ g.NoHoleRight ∧ Apart (· - ·) (Max.max M.par.brkEps M.par.eps) f g
  | .mul a b => NodesOK M replace a ∧ NodesOK M replace b ∧ ∀ f g, a.runWith M replace = some f → b.runWith M replace = some g →
      PF.law f {0}ᶜ ≠ 0 ∧ PF.law g {0}ᶜ ≠ 0 ∧ ApartMul M.par.eps f g
  | .div a b => NodesOK M replace a ∧ NodesOK M replace b ∧ ∀ f g, a.runWith M replace = some f → b.runWith M replace = some g →
      ContPF g ∧ (∀ m, Seg.dirac 0 m ∉ f) ∧ ApartDiv M.par.eps f g
  | .min a b => NodesOK M replace a ∧ NodesOK M replace b ∧ ∀ f g, a.runWith M replace = some f → b.runWith M replace = some g →
      PF.AtomsApart M.par.eps f g
  | .max a b => NodesOK M replace a ∧ NodesOK M replace b ∧ ∀ f g, a.runWith M replace = some f → b.runWith M replace = some g →
      PF.AtomsApart M.par.eps f g

end Pacal.Identity
