import Verif.DepVars.EndEx
import Verif.DepVars.Props

/-!
Property C49: `inference` ends, with a model of the wanted variables.

`Sympy.Solves env P`: the equations in `P` can be solved for each of their variables, and solutions and substitutions stay
in `P` (as for linear equations).  `SortsByKey`: exchanges that remove an unwanted variable come first.
-/

namespace Pacal.DepVars
variable {V K : Type} [DecidableEq V]

/-- **C49** (`inference` ends): if the equations of the model can be solved then `inference` ends without an error for all
wanted variables of the model and all conditions, and its result is a model of exactly the wanted variables.  Full statement:
for every model; missing: equations with no solution or with several, for which an error is raised, and wanted variables that
do not belong to the model, for which `inference` never ends (`C49_finding_endless`). -/
theorem C49_inference_ends_partial {env : Sympy V K} (ho : env.Ok) {P : Expr V K → Prop} (hP : env.Solves P) {before}
    (hb : SortsByKey before) {M : Mdl V K} (hM : M.WF) (hs : ∀ p ∈ M.eqs, P p.2) {wanted : List V}
    (hw : ∀ w ∈ wanted, w ∈ M.all) (condVars : List V) (condX : List K) :
    ∃ M', (∃ N, ∀ fuel, N ≤ fuel → M.inference env before fuel wanted condVars condX = .ok M') ∧
      M'.WF ∧ ∀ v, v ∈ M'.all ↔ v ∈ wanted := by
  obtain ⟨M', h⟩ := Mdl.outer_ends (cond := condVars.zip condX) ho hP hb (2 * M.size wanted + 1)
    (fuel := M.all.toFinset.card + (2 * M.size wanted + 1) + 2) ⟨hM, hs, hw⟩ (Or.inl (by omega)) (by omega)
  have := C49_inference ho hM (before := before) (wanted := wanted) (condVars := condVars) (condX := condX) h
  exact ⟨M', ⟨_, fun fuel hf => Mdl.outer_mono_le hf h⟩, this.1, this.2.1⟩

/-- **C49** (`inference` is right): if moreover the equations and solutions are defined everywhere and the conditions are
about other variables of the model and can be met, then the result describes exactly the values of the wanted variables in
assignments that meet the conditions.  Missing: as for `C49_inference_ends_partial` and `C49_inference_exact_partial`. -/
theorem C49_inference_total_partial {env : Sympy V K} (ho : env.Ok) (ht : env.TotalSolver) {P : Expr V K → Prop}
    (hP : env.Solves P) {before} (hb : SortsByKey before) {M : Mdl V K} (hM : M.WF) (hT : M.Total)
    (hs : ∀ p ∈ M.eqs, P p.2) {wanted condVars : List V} {condX : List K} (hw : ∀ w ∈ wanted, w ∈ M.all)
    (hc : ∀ c ∈ condVars.zip condX, c.1 ∈ M.all ∧ c.1 ∉ wanted)
    (hτ : ∃ τ, M.Sol τ ∧ ∀ c ∈ condVars.zip condX, τ c.1 = c.2) :
    ∃ M', (∃ N, ∀ fuel, N ≤ fuel → M.inference env before fuel wanted condVars condX = .ok M') ∧
      ∀ σ, M'.Sol σ ↔ ∃ τ, M.Sol τ ∧ (∀ v ∈ wanted, τ v = σ v) ∧ ∀ c ∈ condVars.zip condX, τ c.1 = c.2 := by
  obtain ⟨M', ⟨N, hN⟩, -⟩ := C49_inference_ends_partial ho hP hb hM hs hw condVars condX
  exact ⟨M', ⟨N, hN⟩, C49_inference_exact_partial ho ht hM hT hc hτ (hN N (le_refl _))⟩

/-- symbols of the example: `2 = 0 xor 1`, `3 = 2 xor 0`, `4 = not 3` -/
def xorSym (v : ℕ) : Expr ℕ Bool :=
  if v = 2 then build false [0, 1] else if v = 3 then build false [2, 0] else build true [3]

/-- a model with the free variables 0 and 1 -/
def xorM : Mdl ℕ Bool := Mdl.init [0, 1] [4] (fun _ => [4, 3, 2]) xorSym

theorem xorM_wf : xorM.WF := (C49_start (by decide) (by decide) (by decide) ⟨id, by decide⟩).1

theorem xorM_xor : ∀ p ∈ xorM.eqs, IsXor p.2 := by
  intro p hp
  obtain ⟨v, -, rfl⟩ := List.mem_map.1 hp
  simp only [xorSym]
  split_ifs
  exacts [⟨_, _, by decide, rfl⟩, ⟨_, _, by decide, rfl⟩, ⟨_, _, by decide, rfl⟩]

/-- the hypotheses are met: any of the variables may be wanted, given values of any others -/
example (wanted condVars : List ℕ) (condX : List Bool) (hw : ∀ w ∈ wanted, w ∈ xorM.all) :
    ∃ M', (∃ N, ∀ fuel, N ≤ fuel → xorM.inference xorEnv (fun p q => decide (p.1.1 < q.1.1)) fuel wanted condVars condX
      = .ok M') ∧ M'.WF ∧ ∀ v, v ∈ M'.all ↔ v ∈ wanted :=
  C49_inference_ends_partial xorEnv_ok xorEnv_solves
    (fun p q h => ⟨decide_eq_true h, decide_eq_false (not_lt.2 (le_of_lt h))⟩) xorM_wf xorM_xor hw condVars condX

/-- the variables 1 and 4 given the value of 2: exchanges are needed -/
example : (xorM.inference xorEnv (fun p q => decide (p.1.1 < q.1.1)) 12 [1, 4] [2] [true]).toOption.map
    (fun M' => (M'.free, M'.dep)) = some ([4], [1]) := by decide +kernel

end Pacal.DepVars
