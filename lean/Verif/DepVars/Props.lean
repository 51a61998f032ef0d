import Verif.DepVars.PropLemmas
import Mathlib.Data.Fin.Basic
import Mathlib.Data.Fintype.Pi
import Mathlib.Data.Fintype.Option
import Mathlib.Data.Rat.Defs
import Mathlib.Algebra.Order.Ring.Rat
import Mathlib.Tactic.Linarith

/-!
Property C49: operations on a model keep the joint assignments it describes, and every variable stays either free or
dependent.

`Mdl.Sol` are the assignments that satisfy all equations, `Mdl.WF` says that every variable is free or dependent and not
both, `Sympy.Ok` is what is assumed of sympy.
-/

namespace Pacal.DepVars
open Function
variable {V K : Type} [DecidableEq V]

/-! ### example: three variables with `2 = 0 + 1` and `3 = 2 + 0`, values modulo 5 -/

/-- addition -/
def addF (a b : Fin 5) : Option (Fin 5) := some (a + b)
/-- subtraction -/
def subF (a b : Fin 5) : Option (Fin 5) := some (a - b)

/-- a solver for sums of two different variables -/
def solveSum (e : Expr ℕ (Fin 5)) (y x : ℕ) : List (Expr ℕ (Fin 5)) :=
  match e with
  | .bin f (.var a) (.var b) =>
    if f = addF ∧ a ≠ b then
      if x = a then [.bin subF (.var y) (.var b)] else if x = b then [.bin subF (.var y) (.var a)] else []
    else []
  | _ => []

/-- sums are solved, nothing is simplified -/
def sumEnv : Sympy ℕ (Fin 5) := { norm := id, solve := solveSum, real := fun _ => true }

theorem solutions_sum {e : Expr ℕ (Fin 5)} {y x : ℕ} {s : Expr ℕ (Fin 5)} (h : Mdl.solutions sumEnv e y x = [s]) :
    ∃ a b, a ≠ b ∧ e = .bin addF (.var a) (.var b) ∧
      (x = a ∧ s = .bin subF (.var y) (.var b) ∨ x = b ∧ s = .bin subF (.var y) (.var a)) := by
  replace h : solveSum e y x = [s] := by
    rw [Mdl.solutions, List.filter_eq_self.2 (by intro a _; simp [sumEnv])] at h
    exact h
  unfold solveSum at h
  split at h
  · rename_i f a b
    split_ifs at h with h1 h2 h3
    · obtain ⟨rfl, h1⟩ := h1
      exact ⟨a, b, h1, rfl, Or.inl ⟨h2, (List.singleton_inj.1 h).symm⟩⟩
    · obtain ⟨rfl, h1⟩ := h1
      exact ⟨a, b, h1, rfl, Or.inr ⟨h3, (List.singleton_inj.1 h).symm⟩⟩
  · cases h

theorem sumEnv_ok : sumEnv.Ok where
  norm_eval _ _ := rfl
  norm_vars _ _ h := h
  solve_eval e y x s h _ _ σ := by
    obtain ⟨a, b, -, rfl, ⟨rfl, rfl⟩ | ⟨rfl, rfl⟩⟩ := solutions_sum h
    · show addF (σ x) (σ b) = some (σ y) ↔ subF (σ y) (σ b) = some (σ x)
      generalize σ x = p; generalize σ b = q; generalize σ y = r
      revert p q r
      decide
    · show addF (σ a) (σ x) = some (σ y) ↔ subF (σ y) (σ a) = some (σ x)
      generalize σ x = p; generalize σ a = q; generalize σ y = r
      revert p q r
      decide
  solve_vars e y x s h _ _ w hw := by
    obtain ⟨a, b, hab, rfl, ⟨rfl, rfl⟩ | ⟨rfl, rfl⟩⟩ := solutions_sum h
    · rcases List.mem_cons.1 (show w ∈ [y, b] from hw) with rfl | hw
      · exact Or.inl rfl
      · rw [List.mem_singleton] at hw
        subst hw
        exact Or.inr ⟨by simp [Expr.vars], fun h => hab h.symm⟩
    · rcases List.mem_cons.1 (show w ∈ [y, a] from hw) with rfl | hw
      · exact Or.inl rfl
      · rw [List.mem_singleton] at hw
        subst hw
        exact Or.inr ⟨by simp [Expr.vars], hab⟩

theorem sumEnv_total : sumEnv.TotalSolver := by
  intro e y x s h _ σ
  obtain ⟨a, b, -, rfl, ⟨rfl, rfl⟩ | ⟨rfl, rfl⟩⟩ := solutions_sum h <;> rfl

/-- symbols of the example -/
def exSym (v : ℕ) : Expr ℕ (Fin 5) :=
  if v = 2 then .bin addF (.var 0) (.var 1) else .bin addF (.var 2) (.var 0)

/-- the model made of the joint distribution of the variables 0 and 1 and of the variable 3, whose dependent parents are 3
and 2 -/
def exM : Mdl ℕ (Fin 5) := Mdl.init [0, 1] [3] (fun _ => [3, 2]) exSym

/-- **C49** (start): a model made of a joint distribution and of derived variables is well formed, provided that no given
variable is one of the joint distribution, that all variables the given ones are made of belong to the joint distribution
or are derived, and that no variable is derived from itself -/
theorem C49_start {vars rvs : List V} {parentsDep : V → List V} {sym : V → Expr V K} (h1 : vars.Nodup)
    (h2 : ∀ v ∈ rvs ++ rvs.flatMap parentsDep, v ∉ vars)
    (h3 : ∀ v ∈ rvs ++ rvs.flatMap parentsDep, ∀ w ∈ (sym v).vars, w ∈ vars ∨ w ∈ rvs ++ rvs.flatMap parentsDep)
    (h4 : ∃ rank : V → ℕ, ∀ v ∈ rvs ++ rvs.flatMap parentsDep, ∀ w ∈ (sym v).vars, rank w < rank v) :
    (Mdl.init vars rvs parentsDep sym).WF ∧
    ∀ σ, (Mdl.init vars rvs parentsDep sym).Sol σ ↔
      ∀ v ∈ rvs ++ rvs.flatMap parentsDep, (sym v).eval σ = some (σ v) := by
  refine ⟨Mdl.init_wf h1 h2 h3 h4, fun σ => ⟨fun h v hv => ?_, fun h p hp => ?_⟩⟩
  · exact h (v, sym v) (List.mem_map.2 ⟨v, List.mem_dedup.2 hv, rfl⟩)
  · obtain ⟨v, hv, rfl⟩ := List.mem_map.1 hp
    exact h v (List.mem_dedup.1 hv)

theorem exM_wf : exM.WF := by
  refine (C49_start (by decide) (by decide) (by decide) ⟨id, by decide⟩).1

theorem exM_total : exM.Total := by
  intro p hp σ
  obtain ⟨v, hv, rfl⟩ := List.mem_map.1 hp
  dsimp only [exSym]
  split_ifs <;> rfl

/-- **C49, violation** (start): a variable of the joint distribution that is also given as a derived one becomes free and
dependent at the same time, with itself as its equation (`Model(nd, [x])` where `x` has no parents: its symbol stands
for itself) -/
theorem C49_violated_start :
    let M : Mdl ℕ ℚ := Mdl.init [0] [0] (fun _ => []) fun v => .var v
    0 ∈ M.free ∧ 0 ∈ M.dep ∧ M.eqs.map Prod.fst = [0] ∧ ¬ M.WF := by
  refine ⟨by decide, by decide, by decide, fun h => ?_⟩
  exact h.not_both (v := 0) (by decide) (by decide)

/-! ### single operations -/

/-- **C49** (exchange): exchanging a free variable with a dependent one keeps the assignments described by the model; the
two variables trade places and everything else stays -/
theorem C49_exchange {env : Sympy V K} (ho : env.Ok) {M M' : Mdl V K} (hM : M.WF) {fv dv : V}
    (h : M.varschange env fv dv = .ok M') :
    M'.WF ∧ (∀ σ, M'.Sol σ ↔ M.Sol σ) ∧ M'.all = M.all ∧
    (∀ v, v ∈ M'.free ↔ v = dv ∨ v ≠ fv ∧ v ∈ M.free) ∧ (∀ v, v ∈ M'.dep ↔ v = fv ∨ v ≠ dv ∧ v ∈ M.dep) := by
  refine ⟨Mdl.varschange_wf ho hM h, Mdl.varschange_sol ho hM h, ?_⟩
  obtain ⟨h1, h2, e, inv, he, h3, h4, h5, rfl⟩ := Mdl.varschange_ok h
  have hn := List.nodup_append'.1 hM.nodup
  have hne : fv ≠ dv := fun e => hM.not_both h1 (e ▸ h2)
  have hnd : (M.dep ++ [fv]).Nodup := by
    rw [List.nodup_append']
    refine ⟨hn.2.1, List.nodup_singleton _, fun v hv hv' => ?_⟩
    rw [List.mem_singleton] at hv'
    exact hM.not_both (hv' ▸ h1) hv
  refine ⟨rfl, fun v => ?_, fun v => ?_⟩
  · show v ∈ M.free.erase fv ++ [dv] ↔ _
    rw [List.mem_append, hn.1.mem_erase_iff, List.mem_singleton, or_comm]
  · show v ∈ (M.dep ++ [fv]).erase dv ↔ _
    rw [hnd.mem_erase_iff, List.mem_append, List.mem_singleton]
    constructor
    · rintro ⟨a, b | b⟩
      · exact Or.inr ⟨a, b⟩
      · exact Or.inl b
    · rintro (rfl | ⟨a, b⟩)
      · exact ⟨hne, Or.inr rfl⟩
      · exact ⟨a, Or.inl b⟩

/-- the exchange of 1 and 2 in the example succeeds -/
example : ∃ M', exM.varschange sumEnv 1 2 = .ok M' ∧ M'.free = [0, 2] ∧ M'.dep = [3, 1] := ⟨_, rfl, by decide, by decide⟩

/-- **C49** (eliminating a free variable): the model loses a variable no equation is about; the other variables have the
values they had, whatever the value of the eliminated one -/
theorem C49_eliminate_free {env : Sympy V K} (ho : env.Ok) {M M' : Mdl V K} (hM : M.WF) {v : V} (hv : v ∈ M.free)
    (h : M.eliminate env v = .ok M') :
    M'.WF ∧ (∀ w, w ∈ M'.all ↔ w ≠ v ∧ w ∈ M.all) ∧ M'.free = M.free.erase v ∧ M'.dep = M.dep ∧
    ∀ σ x, M'.Sol σ ↔ M.Sol (update σ v x) := by
  refine ⟨Mdl.eliminate_wf ho hM h, fun w => ?_, ?_, ?_, Mdl.eliminate_free_sol hM hv h⟩
  · rw [(Mdl.eliminate_mem h).2, Mdl.mem_erase_iff hM]
  all_goals
    obtain ⟨h1, rfl⟩ := Mdl.eliminate_free hv h
    rfl

/-- a free variable without children -/
example : ∃ M', (Mdl.init [0, 1, 7] [3] (fun _ => [3, 2]) exSym : Mdl ℕ (Fin 5)).eliminate sumEnv 7 = .ok M' ∧
    M'.free = [0, 1] := ⟨_, rfl, by decide⟩

/-- **C49** (eliminating a dependent variable): the remaining equations hold and the equation of the eliminated variable
gives it the value `x` exactly when all equations hold with this value -/
theorem C49_eliminate_dependent {env : Sympy V K} (ho : env.Ok) {M M' : Mdl V K} (hM : M.WF) {v : V} {e : Expr V K}
    (he : (v, e) ∈ M.eqs) (h : M.eliminate env v = .ok M') :
    M'.WF ∧ (∀ w, w ∈ M'.all ↔ w ≠ v ∧ w ∈ M.all) ∧ M'.free = M.free ∧ M'.dep = M.dep.erase v ∧
    ∀ σ x, (M'.Sol σ ∧ e.eval σ = some x) ↔ M.Sol (update σ v x) := by
  have hv : v ∉ M.free := fun hf => hM.not_both hf (hM.key_dep he)
  refine ⟨Mdl.eliminate_wf ho hM h, fun w => ?_, ?_, ?_, Mdl.eliminate_dep_sol ho hM hv h he⟩
  · rw [(Mdl.eliminate_mem h).2, Mdl.mem_erase_iff hM]
  all_goals
    obtain ⟨h1, e', h2, rfl⟩ := Mdl.eliminate_dep hv h
    rfl

/-- eliminating 2 in the example: 3 = (0 + 1) + 0 -/
example : ∃ M', exM.eliminate sumEnv 2 = .ok M' ∧ M'.dep = [3] ∧ M'.children 1 = [3] :=
  ⟨_, rfl, by decide, by decide⟩

/-- **C49** (condition): conditioning on the value of a free variable keeps the assignments that have this value -/
theorem C49_condition {env : Sympy V K} (ho : env.Ok) {M M' : Mdl V K} (hM : M.WF) {v : V} {x : K}
    (h : M.condition env v x = .ok M') :
    M'.WF ∧ (∀ w, w ∈ M'.all ↔ w ≠ v ∧ w ∈ M.all) ∧ M'.free = M.free.erase v ∧ M'.dep = M.dep ∧
    ∀ σ, M'.Sol σ ↔ M.Sol (update σ v x) := by
  refine ⟨Mdl.condition_wf ho hM h, fun w => ?_, ?_, ?_, Mdl.condition_sol ho hM h⟩
  all_goals obtain ⟨h1, rfl⟩ := Mdl.condition_ok h
  · exact Mdl.mem_erase_iff hM
  · rfl
  · rfl

example : ∃ M', exM.condition sumEnv 0 4 = .ok M' ∧ M'.free = [1] ∧ M'.children 0 = [] :=
  ⟨_, rfl, by decide, by decide⟩

/-- **C49** (when the operations succeed): an exchange needs a free and a dependent variable whose equation is about the
free one and otherwise about free variables, and a single solution; a variable can be eliminated if it is dependent, or
free without equations about it; a condition needs a free variable -/
theorem C49_possible {env : Sympy V K} {M : Mdl V K} (hM : M.WF) :
    (∀ fv dv, (∃ M', M.varschange env fv dv = .ok M') ↔ fv ∈ M.free ∧ ∃ e inv, (dv, e) ∈ M.eqs ∧ fv ∈ e.vars ∧
      (∀ w ∈ e.vars, w ∈ M.free) ∧ Mdl.solutions env e dv fv = [inv]) ∧
    (∀ v, (∃ M', M.eliminate env v = .ok M') ↔ v ∈ M.dep ∨ v ∈ M.free ∧ ∀ p ∈ M.eqs, v ∉ p.2.vars) ∧
    (∀ v x, (∃ M', M.condition env v x = .ok M') ↔ v ∈ M.free) := by
  refine ⟨fun fv dv => ⟨?_, ?_⟩, fun v => ⟨?_, Mdl.eliminate_isOk hM⟩, fun v x => ⟨?_, Mdl.condition_isOk hM x⟩⟩
  · rintro ⟨M', h⟩
    obtain ⟨h1, h2, e, inv, he, h3, h4, h5, -⟩ := Mdl.varschange_ok h
    exact ⟨h1, e, inv, Mdl.lookup_ok he, h3, h4, h5⟩
  · rintro ⟨h1, e, inv, h2, h3, h4, h5⟩
    exact Mdl.varschange_isOk hM h1 h2 h3 h4 h5
  · rintro ⟨M', h⟩
    by_cases hv : v ∈ M.free
    · exact Or.inr ⟨hv, (Mdl.eliminate_free hv h).1⟩
    · exact Or.inl (Mdl.eliminate_dep hv h).1
  · rintro ⟨M', h⟩
    exact (Mdl.condition_ok h).1

/-! ### what a model describes -/

/-- **C49** (determined): values of the free variables determine the values of all variables -/
theorem C49_determined {M : Mdl V K} (hM : M.WF) {σ τ : V → K} (hσ : M.Sol σ) (hτ : M.Sol τ)
    (hf : ∀ v ∈ M.free, σ v = τ v) : ∀ v ∈ M.all, σ v = τ v := Mdl.determined hM hσ hτ hf

/-- **C49** (free): if all equations are defined everywhere then the free variables can have any values -/
theorem C49_free {M : Mdl V K} (hM : M.WF) (hT : M.Total) (σ : V → K) :
    ∃ τ, M.Sol τ ∧ ∀ v ∈ M.free, τ v = σ v := Mdl.extend hM hT σ

example : ∃ τ, exM.Sol τ ∧ ∀ v ∈ exM.free, τ v = 3 := C49_free exM_wf exM_total fun _ => 3

/-! ### histories -/

/-- **C49** (every history): whatever operations are done one after the other, every variable is free or dependent and not
both, and no assignment that meets the conditions is lost -/
theorem C49_history {env : Sympy V K} (ho : env.Ok) {ops : List (Op V K)} {M M' : Mdl V K} (hM : M.WF)
    (h : M.run env ops = .ok M') :
    M'.WF ∧ ∀ τ, M.Sol τ → (∀ c ∈ conditions ops, τ c.1 = c.2) → M'.Sol τ :=
  ⟨(Mdl.run_wf ho hM h).1, fun _ h1 h2 => Mdl.run_sol_of ho hM h h1 h2⟩

/-- **C49** (every history, all assignments): if the equations, and the solutions sympy finds for them, are defined
everywhere, then a model obtained by any operations describes exactly the parts of the assignments described before that
meet the conditions.  Missing: equations that are not defined everywhere, see `C49_finding_domain` -/
theorem C49_history_exact_partial {env : Sympy V K} (ho : env.Ok) (ht : env.TotalSolver) {ops : List (Op V K)} {M M' : Mdl V K}
    (hM : M.WF) (hT : M.Total) (h : M.run env ops = .ok M') (σ : V → K) :
    M'.Sol σ ↔ ∃ τ, M.Sol τ ∧ (∀ v ∈ M'.all, τ v = σ v) ∧ ∀ c ∈ conditions ops, τ c.1 = c.2 := by
  refine ⟨Mdl.run_sol ho ht hM hT h, ?_⟩
  rintro ⟨τ, h1, h2, h3⟩
  exact ((C49_history ho hM h).1.sol_congr h2).1 ((C49_history ho hM h).2 τ h1 h3)

/-- a history of the example: exchange 1 with 2, eliminate 1, set 2 to the value 4 -/
example : ∃ M', exM.run sumEnv [.exchange 1 2, .eliminate 1, .condition 2 4] = .ok M' ∧
    M'.free = [0] ∧ M'.dep = [3] ∧ ∀ σ, M'.Sol σ ↔ σ 3 = 4 + σ 0 := by
  refine ⟨_, rfl, by decide, by decide, fun σ => ?_⟩
  constructor
  · intro h
    have := h (3, .bin addF (.const 4) (.var 0)) (List.mem_singleton.2 rfl)
    exact (Option.some.inj this).symm
  · intro h p hp
    obtain rfl := List.mem_singleton.1 hp
    exact congrArg some h.symm

/-! ### inference -/

/-- **C49** (inference): if `inference` returns a model then it is about the wanted variables, every variable is free or
dependent and not both, and no assignment that meets the conditions is lost.  This holds for every number of rounds of its
loops and every order in which pairs of variables are tried -/
theorem C49_inference {env : Sympy V K} (ho : env.Ok) {before} {fuel : ℕ} {M M' : Mdl V K} (hM : M.WF)
    {wanted condVars : List V} {condX : List K} (h : M.inference env before fuel wanted condVars condX = .ok M') :
    M'.WF ∧ (∀ v, v ∈ M'.all ↔ v ∈ wanted) ∧
    ∀ τ, M.Sol τ → (∀ c ∈ condVars.zip condX, τ c.1 = c.2) → M'.Sol τ := by
  have := (Mdl.inv_keeps ho (M := M) (cond := condVars.zip condX)).outer (before := before) (wanted := wanted)
    ⟨hM, fun τ h _ => h⟩ h
  exact ⟨this.1.wf, this.2, this.1.sol⟩

/-- **C49** (inference, all assignments): if moreover the equations and the solutions sympy finds are defined everywhere,
and the conditions are about other variables of the model than the wanted ones and can be met, then the result describes
exactly the values of the wanted variables in assignments that meet the conditions.  Missing: equations that are not
defined everywhere, and contradictory conditions, see `C49_finding_contradiction` -/
theorem C49_inference_exact_partial {env : Sympy V K} (ho : env.Ok) (ht : env.TotalSolver) {before} {fuel : ℕ} {M M' : Mdl V K}
    (hM : M.WF) (hT : M.Total) {wanted condVars : List V} {condX : List K}
    (hc : ∀ c ∈ condVars.zip condX, c.1 ∈ M.all ∧ c.1 ∉ wanted)
    (hs : ∃ τ, M.Sol τ ∧ ∀ c ∈ condVars.zip condX, τ c.1 = c.2)
    (h : M.inference env before fuel wanted condVars condX = .ok M') (σ : V → K) :
    M'.Sol σ ↔ ∃ τ, M.Sol τ ∧ (∀ v ∈ wanted, τ v = σ v) ∧ ∀ c ∈ condVars.zip condX, τ c.1 = c.2 := by
  have hr := (Mdl.inv_rep ho ht hs).outer (before := before) (wanted := wanted)
    (Mdl.Rep.refl hM hT fun c h => (hc c h).1) h
  rw [hr.1.sol]
  refine exists_congr fun τ => and_congr_right fun _ => ?_
  constructor
  · rintro ⟨a, b⟩
    exact ⟨fun v hv => a v ((hr.2 v).2 hv), fun c hcc => b c hcc fun h' => (hc c hcc).2 ((hr.2 _).1 h')⟩
  · rintro ⟨a, b⟩
    exact ⟨fun v hv => a v ((hr.2 v).1 hv), fun c hcc _ => b c hcc⟩

/-- order of pairs in the examples: by the first key -/
def exBefore (p q : (ℤ × ℤ) × ℕ × ℕ) : Bool := decide (p.1.1 < q.1.1)

/-- in the example: the variables 0 and 3 given that 2 has the value 4; the variable 1 is removed -/
example : ∃ M', exM.inference sumEnv exBefore 9 [0, 3] [2] [4] = .ok M' ∧ (∀ v, v ∈ M'.all ↔ v ∈ [0, 3]) ∧
    (∀ c ∈ [2].zip [(4 : Fin 5)], c.1 ∈ exM.all ∧ c.1 ∉ [0, 3]) ∧
    (∃ τ, exM.Sol τ ∧ ∀ c ∈ [2].zip [(4 : Fin 5)], τ c.1 = c.2) ∧
    ∀ σ, M'.Sol σ → σ 3 = 4 + σ 0 := by
  refine ⟨_, rfl, (C49_inference sumEnv_ok (before := exBefore) (fuel := 9) (condVars := [2]) (condX := [4]) exM_wf
    rfl).2.1, by decide, ?_, ?_⟩
  · refine ⟨fun v => if v = 3 then 0 else if v = 2 then 4 else if v = 0 then 1 else 3, ?_, by decide⟩
    intro p hp
    obtain ⟨v, hv, rfl⟩ := List.mem_map.1 hp
    have : v = 3 ∨ v = 2 := by
      have := List.mem_dedup.1 hv
      simpa using this
    rcases this with rfl | rfl <;> rfl
  · intro σ h
    have := h (3, .bin addF (.const 4) (.var 0)) (List.mem_singleton.2 rfl)
    exact (Option.some.inj this).symm

/-! ### findings -/

/-- **C49, finding** (unknown variables): `inference` never returns if a wanted variable does not belong to the model -/
theorem C49_finding_unknown_wanted {env : Sympy V K} (ho : env.Ok) {before} {M : Mdl V K} (hM : M.WF)
    {wanted condVars : List V} {condX : List K} {w : V} (hw : w ∈ wanted) (hwM : w ∉ M.all) (fuel : ℕ) (M' : Mdl V K) :
    M.inference env before fuel wanted condVars condX ≠ .ok M' := by
  intro h
  have := (Mdl.inv_all ho (M := M) (cond := condVars.zip condX)).outer (before := before) (wanted := wanted)
    ⟨hM, fun v hv => hv⟩ h
  exact hwM (this.1.2 w ((this.2 w).2 hw))

/-- **C49, finding** (endless loop): for a model of one variable and another wanted variable no error is reported either,
the loops go on for ever -/
theorem C49_finding_endless (env : Sympy ℕ ℚ) (before) (fuel : ℕ) :
    Mdl.inference env before fuel { free := [0], dep := [], all := [0], eqs := [] } [1] [] [] = .error .outOfFuel := by
  have hin : ∀ n, Mdl.inner env before [1] [] (n + 1) ⟨[], [], [], []⟩ [] = .ok ⟨[], [], [], []⟩ := fun n => rfl
  have hout : ∀ n, Mdl.outer env before [1] [] n ⟨[], [], [], []⟩ = .error .outOfFuel := by
    intro n
    induction n with
    | zero => rfl
    | succ n ih =>
      cases n with
      | zero => rfl
      | succ n =>
        show (Mdl.inner env before [1] [] (n + 1) ⟨[], [], [], []⟩ [] >>= fun M =>
          Mdl.outer env before [1] [] (n + 1) M) = _
        rw [hin n]
        exact ih
  cases fuel with
  | zero => rfl
  | succ n =>
    cases n with
    | zero => rfl
    | succ n =>
      cases n with
      | zero => rfl
      | succ n =>
        show (Mdl.inner env before [1] [] (n + 1) ⟨[], [], [], []⟩ [] >>= fun M =>
          Mdl.outer env before [1] [] (n + 2) M) = _
        rw [hin n]
        exact hout _

/-- **C49, finding** (contradiction): a condition on a dependent variable that other conditions have made constant is
dropped without a check: with `1 = 0`, the conditions 0 has the value 1 and 1 has the value 2 give a model of the wanted
variable 2 and no error, though no assignment meets the conditions -/
theorem C49_finding_contradiction :
    let M : Mdl ℕ ℚ := { free := [0], dep := [1, 2], all := [0, 1, 2], eqs := [(1, .var 0), (2, .var 0)] }
    let env : Sympy ℕ ℚ := { norm := id, solve := fun _ _ _ => [], real := fun _ => true }
    M.WF ∧ M.inference env (fun _ _ => false) 9 [2] [0, 1] [1, 2] =
      .ok { free := [], dep := [2], all := [2], eqs := [(2, .const 1)] } ∧
    ¬ ∃ τ, M.Sol τ ∧ ∀ c ∈ [0, 1].zip [(1 : ℚ), 2], τ c.1 = c.2 := by
  refine ⟨⟨by decide, List.Perm.refl _, List.Perm.refl _, ?_, id, ?_⟩, rfl, ?_⟩
  · intro p hp w hw
    simp only [List.mem_cons, List.not_mem_nil, or_false] at hp
    rcases hp with rfl | rfl <;> (rw [List.mem_singleton.1 hw]; decide)
  · intro p hp w hw
    simp only [List.mem_cons, List.not_mem_nil, or_false] at hp
    rcases hp with rfl | rfl <;> (rw [List.mem_singleton.1 hw]; decide)
  · rintro ⟨τ, h, hc⟩
    have h1 : some (τ 0) = some (τ 1) := h (1, .var 0) (by simp)
    have h2 : τ 0 = 1 := hc (0, 1) (by simp)
    have h3 : τ 1 = 2 := hc (1, 2) (by simp)
    rw [h2, h3] at h1
    exact absurd (Option.some.inj h1) (by decide)

/-- **C49** (`are_free`) for one variable: the answer is whether it is free.  Full statement: for any list of variables the
answer is whether all of them are free; false, see `C49_finding_are_free`. -/
theorem C49_are_free_partial (M : Mdl V K) (v : V) : M.areFree [v] = some (decide (v ∈ M.free)) := rfl

/-- **C49, finding** (`are_free`): the answer is about the first variable only, and there is no answer for no variables -/
theorem C49_finding_are_free :
    exM.areFree [0, 3] = some true ∧ exM.areFree [3] = some false ∧ exM.areFree [] = none := by decide

/-- the partial inverse of `x ↦ x + 1` for `x ≥ 0`, `x ↦ x` for `x < 0`, an injective function that misses `[0, 1)` (as
`exp` misses the negative numbers) -/
def gapInv (y : ℚ) : Option ℚ := if 1 ≤ y then some (y - 1) else if y < 0 then some y else none

/-- **C49, finding** (domains): the equation of an eliminated variable also says where it is defined, and this is forgotten:
with `1 = f(0)`, where `f` misses `[0, 1)`, exchanging the variables and eliminating 0 leaves the free variable 1 without
any restriction, so that the value 1/2 is described although no assignment of the model has it; the model relies on the
joint density being 0 there -/
theorem C49_finding_domain :
    let f : ℚ → Option ℚ := fun x => if 0 ≤ x then some (x + 1) else some x
    let M : Mdl ℕ ℚ := { free := [0], dep := [1], all := [0, 1], eqs := [(1, .un f (.var 0))] }
    let env : Sympy ℕ ℚ := { norm := id, solve := fun _ y _ => [.un gapInv (.var y)], real := fun _ => true }
    (∀ x y, f x = some y ↔ gapInv y = some x) ∧
    M.run env [.exchange 0 1, .eliminate 0] = .ok { free := [1], dep := [], all := [1], eqs := [] } ∧
    ¬ ∃ τ, M.Sol τ ∧ τ 1 = 1 / 2 := by
  intro f M env
  have hf : ∀ x y, f x = some y ↔ gapInv y = some x := by
    intro x y
    dsimp only [f, gapInv]
    split_ifs <;> simp only [Option.some.injEq, iff_false] <;>
      first
        | (constructor <;> intro h <;> linarith)
        | (intro h; linarith)
  refine ⟨hf, rfl, ?_⟩
  rintro ⟨τ, h, h1⟩
  have h2 : f (τ 0) = some (τ 1) := h (1, .un f (.var 0)) (List.mem_singleton.2 rfl)
  rw [h1] at h2
  have h3 := (hf _ _).1 h2
  have h4 : gapInv (1 / 2) = none := by decide +kernel
  rw [h4] at h3
  cases h3

end Pacal.DepVars
