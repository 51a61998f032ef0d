import Verif.DepVars.Lemmas
import Mathlib.Data.List.Dedup

/-!
Lemmas on histories and on `inference`.
-/

set_option linter.unusedSectionVars false

namespace Pacal.DepVars
open Function
variable {V K : Type} [DecidableEq V]

namespace Mdl
open Expr

/-! ### totality -/

theorem substAll_total {env : Sympy V K} (ho : env.Ok) {d : List (V × Expr V K)} {v : V} {s : Expr V K}
    (hd : ∀ p ∈ d, p.2.Total) (hs : s.Total) : ∀ p ∈ substAll env d v s, p.2.Total := by
  intro p hp
  obtain ⟨q, hq, rfl⟩ := mem_substAll.1 hp
  split_ifs
  · intro σ
    dsimp only
    rw [ho.norm_eval]
    exact total_subs hs (hd q hq) σ
  · exact hd q hq

theorem varschange_total {env : Sympy V K} (ho : env.Ok) (ht : env.TotalSolver) {M M' : Mdl V K} (hM : M.WF)
    (hT : M.Total) {fv dv : V} (h : M.varschange env fv dv = .ok M') : M'.Total := by
  obtain ⟨h1, h2, e, inv, he, h3, h4, h5, rfl⟩ := varschange_ok h
  have hi := ht _ _ _ _ h5 (hT _ (lookup_ok he))
  intro p hp
  dsimp only at hp
  rw [varschange_eqs hM h1] at hp
  rcases List.mem_append.1 hp with hp | hp
  · exact substAll_total ho (fun q hq => hT q (List.mem_filter.1 hq).1) hi p hp
  · rw [List.mem_singleton] at hp
    subst hp
    exact hi

theorem eliminate_total {env : Sympy V K} (ho : env.Ok) {M M' : Mdl V K} (hT : M.Total) {v : V}
    (h : M.eliminate env v = .ok M') : M'.Total := by
  by_cases hv : v ∈ M.free
  · obtain ⟨h1, rfl⟩ := eliminate_free hv h
    exact hT
  · obtain ⟨h1, e, he, rfl⟩ := eliminate_dep hv h
    exact substAll_total ho (fun q hq => hT q (List.mem_filter.1 hq).1) (hT _ (lookup_ok he))

theorem condition_total {env : Sympy V K} (ho : env.Ok) {M M' : Mdl V K} (hT : M.Total) {v : V} {x : K}
    (h : M.condition env v x = .ok M') : M'.Total := by
  obtain ⟨h1, rfl⟩ := condition_ok h
  exact substAll_total ho hT fun σ => rfl

/-! ### variables of the model -/

theorem eliminate_mem {env : Sympy V K} {M M' : Mdl V K} {v : V} (h : M.eliminate env v = .ok M') :
    v ∈ M.free ++ M.dep ∧ M'.all = M.all.erase v := by
  by_cases hv : v ∈ M.free
  · obtain ⟨h1, rfl⟩ := eliminate_free hv h
    exact ⟨by simp [hv], rfl⟩
  · obtain ⟨h1, e, he, rfl⟩ := eliminate_dep hv h
    exact ⟨by simp [h1], rfl⟩

theorem WF.all_nodup {M : Mdl V K} (h : M.WF) : M.all.Nodup := h.all.nodup_iff.2 h.nodup

theorem mem_erase_iff {M : Mdl V K} (h : M.WF) {v w : V} : w ∈ M.all.erase v ↔ w ≠ v ∧ w ∈ M.all :=
  h.all_nodup.mem_erase_iff

/-- solutions do not see the variables outside of the model -/
theorem WF.sol_congr {M : Mdl V K} (h : M.WF) {σ τ : V → K} (hs : ∀ v ∈ M.all, σ v = τ v) : M.Sol σ ↔ M.Sol τ := by
  refine forall₂_congr fun p hp => ?_
  have h1 : ∀ v ∈ p.2.vars, σ v = τ v := fun v hv => hs v (h.all.mem_iff.2 (h.closed p hp v hv))
  rw [eval_congr h1, hs p.1 (h.all.mem_iff.2 (by simp [h.key_dep hp]))]

/-! ### the meaning of one step, in terms of existence -/

theorem eliminate_sol_exists {env : Sympy V K} (ho : env.Ok) {M M' : Mdl V K} (hM : M.WF) (hT : M.Total) {v : V}
    (h : M.eliminate env v = .ok M') (σ : V → K) : M'.Sol σ ↔ ∃ x, M.Sol (update σ v x) := by
  by_cases hv : v ∈ M.free
  · exact ⟨fun hs => ⟨σ v, (eliminate_free_sol hM hv h σ _).1 hs⟩,
      fun ⟨x, hx⟩ => (eliminate_free_sol hM hv h σ x).2 hx⟩
  · obtain ⟨h1, e, he, -⟩ := eliminate_dep hv h
    have hmem := lookup_ok he
    obtain ⟨x, hx⟩ := Option.isSome_iff_exists.1 (hT _ hmem σ)
    exact ⟨fun hs => ⟨x, (eliminate_dep_sol ho hM hv h hmem σ x).1 ⟨hs, hx⟩⟩,
      fun ⟨y, hy⟩ => ((eliminate_dep_sol ho hM hv h hmem σ y).2 hy).1⟩

theorem eliminate_sol_of {env : Sympy V K} (ho : env.Ok) {M M' : Mdl V K} (hM : M.WF) {v : V}
    (h : M.eliminate env v = .ok M') {σ : V → K} (hs : M.Sol σ) : M'.Sol σ := by
  have hs' : M.Sol (update σ v (σ v)) := by rwa [update_eq_self]
  by_cases hv : v ∈ M.free
  · exact (eliminate_free_sol hM hv h σ _).2 hs'
  · obtain ⟨h1, e, he, -⟩ := eliminate_dep hv h
    exact ((eliminate_dep_sol ho hM hv h (lookup_ok he) σ _).2 hs').1

/-! ### histories -/

theorem step_wf {env : Sympy V K} (ho : env.Ok) {M M' : Mdl V K} (hM : M.WF) {o : Op V K}
    (h : M.step env o = .ok M') : M'.WF := by
  cases o with
  | exchange fv dv => exact varschange_wf ho hM h
  | eliminate v => exact eliminate_wf ho hM h
  | condition v x => exact condition_wf ho hM h

theorem step_total {env : Sympy V K} (ho : env.Ok) (ht : env.TotalSolver) {M M' : Mdl V K} (hM : M.WF) (hT : M.Total)
    {o : Op V K} (h : M.step env o = .ok M') : M'.Total := by
  cases o with
  | exchange fv dv => exact varschange_total ho ht hM hT h
  | eliminate v => exact eliminate_total ho hT h
  | condition v x => exact condition_total ho hT h

theorem step_all {env : Sympy V K} {M M' : Mdl V K} (hM : M.WF) {o : Op V K} (h : M.step env o = .ok M') :
    ∀ v ∈ M'.all, v ∈ M.all := by
  cases o with
  | exchange fv dv =>
    obtain ⟨h1, h2, e, inv, he, h3, h4, h5, rfl⟩ := varschange_ok h
    exact fun v hv => hv
  | eliminate v =>
    rw [(eliminate_mem h).2]
    exact fun w hw => List.mem_of_mem_erase hw
  | condition v x =>
    obtain ⟨h1, rfl⟩ := condition_ok h
    exact fun w hw => List.mem_of_mem_erase hw

theorem run_cons {env : Sympy V K} {M M' : Mdl V K} {o : Op V K} {ops : List (Op V K)}
    (h : M.run env (o :: ops) = .ok M') : ∃ N, M.step env o = .ok N ∧ N.run env ops = .ok M' := by
  rw [run, List.foldlM_cons] at h
  exact bind_ok.1 h

theorem run_wf {env : Sympy V K} (ho : env.Ok) : ∀ {ops : List (Op V K)} {M M' : Mdl V K}, M.WF →
    M.run env ops = .ok M' → M'.WF ∧ (∀ v ∈ M'.all, v ∈ M.all) ∧ ∀ c ∈ conditions ops, c.1 ∈ M.all
  | [], M, M', hM, h => by
    cases h
    exact ⟨hM, fun v hv => hv, fun c hc => by simp [conditions] at hc⟩
  | o :: ops, M, M', hM, h => by
    obtain ⟨N, h1, h2⟩ := run_cons h
    obtain ⟨a, b, c⟩ := run_wf ho (step_wf ho hM h1) h2
    refine ⟨a, fun v hv => step_all hM h1 v (b v hv), ?_⟩
    cases o with
    | exchange fv dv => exact fun p hp => step_all hM h1 _ (c p hp)
    | eliminate v => exact fun p hp => step_all hM h1 _ (c p hp)
    | condition v x =>
      intro p hp
      rcases List.mem_cons.1 hp with rfl | hp
      · obtain ⟨h1, -⟩ := condition_ok h1
        exact hM.all.mem_iff.2 (by simp [h1])
      · exact step_all hM h1 _ (c p hp)

theorem run_sol_of {env : Sympy V K} (ho : env.Ok) : ∀ {ops : List (Op V K)} {M M' : Mdl V K}, M.WF →
    M.run env ops = .ok M' → ∀ {τ : V → K}, M.Sol τ → (∀ c ∈ conditions ops, τ c.1 = c.2) → M'.Sol τ
  | [], M, M', hM, h, τ, hs, _ => by
    cases h
    exact hs
  | o :: ops, M, M', hM, h, τ, hs, hc => by
    obtain ⟨N, h1, h2⟩ := run_cons h
    have hN := step_wf ho hM h1
    cases o with
    | exchange fv dv => exact run_sol_of ho hN h2 ((varschange_sol ho hM h1 τ).2 hs) hc
    | eliminate v => exact run_sol_of ho hN h2 (eliminate_sol_of ho hM h1 hs) hc
    | condition v x =>
      refine run_sol_of ho hN h2 ((condition_sol ho hM h1 τ).2 ?_) fun c h => hc c (List.mem_cons_of_mem _ h)
      have : τ v = x := hc (v, x) (by simp [conditions])
      rw [← this, update_eq_self]
      exact hs

theorem run_sol {env : Sympy V K} (ho : env.Ok) (ht : env.TotalSolver) : ∀ {ops : List (Op V K)} {M M' : Mdl V K},
    M.WF → M.Total → M.run env ops = .ok M' → ∀ {σ : V → K}, M'.Sol σ →
    ∃ τ, M.Sol τ ∧ (∀ v ∈ M'.all, τ v = σ v) ∧ ∀ c ∈ conditions ops, τ c.1 = c.2
  | [], M, M', hM, _, h, σ, hs => by
    cases h
    exact ⟨σ, hs, fun v _ => rfl, fun c hc => by simp [conditions] at hc⟩
  | o :: ops, M, M', hM, hT, h, σ, hs => by
    obtain ⟨N, h1, h2⟩ := run_cons h
    have hN := step_wf ho hM h1
    obtain ⟨τ, a, b, c⟩ := run_sol ho ht hN (step_total ho ht hM hT h1) h2 hs
    obtain ⟨-, d, e⟩ := run_wf ho hN h2
    cases o with
    | exchange fv dv => exact ⟨τ, (varschange_sol ho hM h1 τ).1 a, b, c⟩
    | eliminate v =>
      obtain ⟨x, hx⟩ := (eliminate_sol_exists ho hM hT h1 τ).1 a
      have hv : ∀ w ∈ N.all, w ≠ v := by
        rw [(eliminate_mem h1).2]
        exact fun w hw => ((mem_erase_iff hM).1 hw).1
      refine ⟨_, hx, fun w hw => ?_, fun p hp => ?_⟩
      · rw [update_of_ne (hv w (d w hw))]
        exact b w hw
      · rw [update_of_ne (hv _ (e p hp))]
        exact c p hp
    | condition v x =>
      obtain ⟨-, hN'⟩ := condition_ok h1
      have hv : ∀ w ∈ N.all, w ≠ v := by
        rw [hN']
        exact fun w hw => ((mem_erase_iff hM).1 hw).1
      refine ⟨_, (condition_sol ho hM h1 τ).1 a, fun w hw => ?_, fun p hp => ?_⟩
      · rw [update_of_ne (hv w (d w hw))]
        exact b w hw
      · rcases List.mem_cons.1 hp with rfl | hp
        · rw [update_self]
        · rw [update_of_ne (hv _ (e p hp))]
          exact c p hp

/-! ### `inference` -/

theorem propagate_wf {env : Sympy V K} (ho : env.Ok) {N : Mdl V K} (h : N.WF) {v : V} {e : Expr V K}
    (he : (v, e) ∈ N.eqs) : Mdl.WF { N with eqs := substAll env N.eqs v e } := by
  constructor
  · exact h.nodup
  · exact h.all
  · dsimp only
    rw [substAll_keys]
    exact h.keys
  · intro p hp w hw
    obtain ⟨q, hq, -, hqv⟩ := substAll_vars ho.norm_vars hp
    rcases hqv w hw with h' | h'
    · exact h.closed q hq w h'.1
    · exact h.closed _ he w h'.1
  · obtain ⟨r, hr⟩ := h.acyclic
    refine ⟨r, fun p hp w hw => ?_⟩
    obtain ⟨q, hq, hqe, hqv⟩ := substAll_vars ho.norm_vars hp
    rw [← hqe]
    rcases hqv w hw with h' | h'
    · exact hr q hq w h'.1
    · exact Nat.lt_trans (hr _ he w h'.1) (hr q hq v h'.2)

/-- `N` describes the assignments of its variables that extend to assignments described by `M` that meet the conditions on
the variables no longer there -/
structure Rep (M : Mdl V K) (cond : List (V × K)) (N : Mdl V K) : Prop where
  wf : N.WF
  total : N.Total
  sol : ∀ σ, N.Sol σ ↔ ∃ τ, M.Sol τ ∧ (∀ v ∈ N.all, τ v = σ v) ∧ ∀ c ∈ cond, c.1 ∉ N.all → τ c.1 = c.2

theorem Rep.refl {M : Mdl V K} (hM : M.WF) (hT : M.Total) {cond : List (V × K)} (hc : ∀ c ∈ cond, c.1 ∈ M.all) :
    Rep M cond M := by
  refine ⟨hM, hT, fun σ => ⟨fun h => ⟨σ, h, fun _ _ => rfl, fun c h1 h2 => absurd (hc c h1) h2⟩, ?_⟩⟩
  rintro ⟨τ, h1, h2, -⟩
  exact (hM.sol_congr h2).1 h1

theorem Rep.exchange {env : Sympy V K} (ho : env.Ok) (ht : env.TotalSolver) {M N N' : Mdl V K} {cond : List (V × K)}
    (h : Rep M cond N) {fv dv : V} (hs : N.varschange env fv dv = .ok N') : Rep M cond N' := by
  refine ⟨varschange_wf ho h.wf hs, varschange_total ho ht h.wf h.total hs, fun σ => ?_⟩
  rw [varschange_sol ho h.wf hs, h.sol]
  obtain ⟨h1, h2, e, inv, he, h3, h4, h5, rfl⟩ := varschange_ok hs
  rfl

theorem Rep.eliminate {env : Sympy V K} (ho : env.Ok) {M N N' : Mdl V K} {cond : List (V × K)}
    (h : Rep M cond N) {v : V} (hv : v ∉ cond.map Prod.fst) (hs : N.eliminate env v = .ok N') : Rep M cond N' := by
  refine ⟨eliminate_wf ho h.wf hs, eliminate_total ho h.total hs, fun σ => ?_⟩
  rw [eliminate_sol_exists ho h.wf h.total hs, (eliminate_mem hs).2]
  simp only [h.sol, mem_erase_iff h.wf]
  constructor
  · rintro ⟨x, τ, a, b, c⟩
    refine ⟨τ, a, ?_, ?_⟩
    · intro w hw
      rw [b w hw.2, update_of_ne hw.1]
    · intro p hp hn
      refine c p hp fun h' => hn ⟨fun e => hv (List.mem_map.2 ⟨p, hp, e⟩), h'⟩
  · rintro ⟨τ, a, b, c⟩
    refine ⟨τ v, τ, a, ?_, ?_⟩
    · intro w hw
      by_cases hwv : w = v
      · rw [hwv, update_self]
      · rw [update_of_ne hwv, b w ⟨hwv, hw⟩]
    · intro p hp hn
      exact c p hp fun h' => hn h'.2

/-- removing a variable of the condition by giving it its value -/
theorem Rep.fix {M N N' : Mdl V K} {cond : List (V × K)} (h : Rep M cond N) {v : V} {x : K}
    (hx : ∀ c ∈ cond, c.1 = v → c.2 = x) (hv : v ∈ cond.map Prod.fst) (hw : N'.WF) (ht : N'.Total)
    (ha : N'.all = N.all.erase v) (hvN : v ∈ N.all) (hs : ∀ σ, N'.Sol σ ↔ N.Sol (update σ v x)) : Rep M cond N' := by
  refine ⟨hw, ht, fun σ => ?_⟩
  rw [hs, h.sol, ha]
  simp only [mem_erase_iff h.wf]
  refine exists_congr fun τ => and_congr_right fun _ => ?_
  constructor
  · rintro ⟨b, c⟩
    refine ⟨?_, ?_⟩
    · intro w hw
      rw [b w hw.2, update_of_ne hw.1]
    · intro p hp hn
      by_cases hpv : p.1 = v
      · rw [hx p hp hpv, hpv, b v hvN, update_self]
      · exact c p hp fun h' => hn ⟨hpv, h'⟩
  · rintro ⟨b, c⟩
    have hτ : τ v = x := by
      obtain ⟨p, hp, hpv⟩ := List.mem_map.1 hv
      have := c p hp fun h' => h'.1 hpv
      rw [hpv, hx p hp hpv] at this
      exact this
    refine ⟨?_, ?_⟩
    · intro w hw
      by_cases hwv : w = v
      · rw [hwv, update_self, hτ]
      · rw [update_of_ne hwv, b w ⟨hwv, hw⟩]
    · intro p hp hn
      exact c p hp fun h' => hn h'.2

/-- the conditions can be met -/
def Consistent (M : Mdl V K) (cond : List (V × K)) : Prop := ∃ τ, M.Sol τ ∧ ∀ c ∈ cond, τ c.1 = c.2

theorem Rep.condition {env : Sympy V K} (ho : env.Ok) {M N N' : Mdl V K} {cond : List (V × K)} (hC : Consistent M cond)
    (h : Rep M cond N) {v : V} {x : K} (hv : (v, x) ∈ cond) (hs : N.condition env v x = .ok N') : Rep M cond N' := by
  obtain ⟨τ, -, hτ⟩ := hC
  have h0 := condition_ok hs
  refine h.fix (v := v) (x := x) ?_ (List.mem_map.2 ⟨_, hv, rfl⟩) (condition_wf ho h.wf hs)
    (condition_total ho h.total hs) ?_ (h.wf.all.mem_iff.2 (by simp [h0.1])) (condition_sol ho h.wf hs)
  · intro c hc e
    rw [← hτ c hc, e]
    exact hτ _ hv
  · rw [h0.2]

theorem Rep.eliminate_const {env : Sympy V K} (ho : env.Ok) {M N N' : Mdl V K} {cond : List (V × K)}
    (hC : Consistent M cond) (h : Rep M cond N) {v : V} (hc : ∀ e, (v, e) ∈ N.eqs → e.vars = [])
    (hf : v ∉ N.free) (hs : N.eliminate env v = .ok N') : Rep M cond N' := by
  by_cases hv : v ∈ cond.map Prod.fst
  · obtain ⟨h1, e, he, -⟩ := eliminate_dep hf hs
    have hmem := lookup_ok he
    have he0 : ∀ σ τ, e.eval σ = e.eval τ := fun σ τ => eval_congr (by rw [hc e hmem]; simp)
    obtain ⟨τ, hτ, hτc⟩ := hC
    have hN : N.Sol τ := (h.sol τ).2 ⟨τ, hτ, fun _ _ => rfl, fun c h _ => hτc c h⟩
    have hev : ∀ σ, e.eval σ = some (τ v) := fun σ => (he0 σ τ).trans (hN _ hmem)
    refine h.fix (v := v) (x := τ v) ?_ hv (eliminate_wf ho h.wf hs) (eliminate_total ho h.total hs) (eliminate_mem hs).2
      (h.wf.all.mem_iff.2 (by simp [h1])) fun σ => ?_
    · intro c hc e
      rw [← hτc c hc, e]
    · rw [← eliminate_dep_sol ho h.wf hf hs hmem σ (τ v)]
      exact ⟨fun a => ⟨a, hev σ⟩, fun a => a.1⟩
  · exact h.eliminate ho hv hs

theorem Rep.propagate {env : Sympy V K} (ho : env.Ok) {M N : Mdl V K} {cond : List (V × K)}
    (h : Rep M cond N) {v : V} {e : Expr V K} (he : (v, e) ∈ N.eqs) :
    Rep M cond { N with eqs := substAll env N.eqs v e } := by
  have hns := h.wf.not_self he
  have hmem : (v, e) ∈ substAll env N.eqs v e := mem_substAll.2 ⟨(v, e), he, if_neg hns⟩
  refine ⟨propagate_wf ho h.wf he, substAll_total ho h.total (h.total _ he), fun σ => ?_⟩
  · dsimp only
    rw [← h.sol]
    constructor
    · intro hs
      exact (substAll_sol ho.norm_eval (hs _ hmem)).1 hs
    · intro hs
      exact (substAll_sol ho.norm_eval (hs _ he)).2 hs

/-- equation of the variable has no variables -/
def ConstIn (N : Mdl V K) (v : V) : Prop := v ∉ N.free ∧ ∀ e, (v, e) ∈ N.eqs → e.vars = []

/-- what the steps of `inference` preserve -/
structure Inv (env : Sympy V K) (cond : List (V × K)) (I : Mdl V K → Prop) : Prop where
  wf : ∀ {N}, I N → N.WF
  exchange : ∀ {N N' : Mdl V K} {fv dv : V}, I N → N.varschange env fv dv = .ok N' → I N'
  eliminate : ∀ {N N' : Mdl V K} {v : V}, I N → v ∉ cond.map Prod.fst → N.eliminate env v = .ok N' → I N'
  condition : ∀ {N N' : Mdl V K} {v : V} {x : K}, I N → (v, x) ∈ cond → N.condition env v x = .ok N' → I N'
  const : ∀ {N N' : Mdl V K} {v : V}, I N → ConstIn N v → N.eliminate env v = .ok N' → I N'
  propagate : ∀ {N : Mdl V K} {v : V} {e : Expr V K}, I N → (v, e) ∈ N.eqs →
    I { N with eqs := substAll env N.eqs v e }

/-- every solution that meets the conditions is still there -/
structure Keeps (M : Mdl V K) (cond : List (V × K)) (N : Mdl V K) : Prop where
  wf : N.WF
  sol : ∀ τ, M.Sol τ → (∀ c ∈ cond, τ c.1 = c.2) → N.Sol τ

theorem inv_rep {env : Sympy V K} (ho : env.Ok) (ht : env.TotalSolver) {M : Mdl V K} {cond : List (V × K)}
    (hC : Consistent M cond) : Inv env cond (Rep M cond) where
  wf h := h.wf
  exchange h hs := h.exchange ho ht hs
  eliminate h hv hs := h.eliminate ho hv hs
  condition h hv hs := h.condition ho hC hv hs
  const h hc hs := h.eliminate_const ho hC hc.2 hc.1 hs
  propagate h he := h.propagate ho he

theorem inv_keeps {env : Sympy V K} (ho : env.Ok) {M : Mdl V K} {cond : List (V × K)} :
    Inv env cond (Keeps M cond) where
  wf h := h.wf
  exchange h hs := ⟨varschange_wf ho h.wf hs, fun τ a b => (varschange_sol ho h.wf hs τ).2 (h.sol τ a b)⟩
  eliminate h _ hs := ⟨eliminate_wf ho h.wf hs, fun τ a b => eliminate_sol_of ho h.wf hs (h.sol τ a b)⟩
  condition {N N' v x} h hv hs := ⟨condition_wf ho h.wf hs, fun τ a b => by
    refine (condition_sol ho h.wf hs τ).2 ?_
    have : τ v = x := b _ hv
    rw [← this, update_eq_self]
    exact h.sol τ a b⟩
  const h _ hs := ⟨eliminate_wf ho h.wf hs, fun τ a b => eliminate_sol_of ho h.wf hs (h.sol τ a b)⟩
  propagate h he := ⟨propagate_wf ho h.wf he, fun τ a b =>
    (substAll_sol ho.norm_eval (h.sol τ a b _ he)).2 (h.sol τ a b)⟩

theorem loop_cons {f : Mdl V K → V → Except MErr (Mdl V K)} {M M' : Mdl V K} {v : V} {l : List V}
    (h : loop f M (v :: l) = .ok M') : ∃ N, f M v = .ok N ∧ loop f N l = .ok M' := by
  rw [loop, List.foldlM_cons] at h
  exact bind_ok.1 h

theorem Inv.loop_eliminate {env : Sympy V K} {I : Mdl V K → Prop} {cond : List (V × K)} (hI : Inv env cond I) :
    ∀ {l : List V} {N N' : Mdl V K}, I N → (∀ v ∈ l, v ∉ cond.map Prod.fst) →
    loop (Mdl.eliminate env) N l = .ok N' → I N'
  | [], N, N', h, _, hl => by
    cases hl
    exact h
  | v :: l, N, N', h, hv, hl => by
    obtain ⟨N₁, h1, h2⟩ := loop_cons hl
    exact Inv.loop_eliminate hI (hI.eliminate h (hv v (by simp)) h1) (fun w hw => hv w (by simp [hw])) h2

theorem find_cond {cond : List (V × K)} {v : V} :
    (cond.reverse.find? fun p => decide (p.1 = v)) = none → v ∉ cond.map Prod.fst := by
  intro h hv
  obtain ⟨p, hp, rfl⟩ := List.mem_map.1 hv
  have := List.find?_eq_none.1 h p (by simp [hp])
  simp at this

theorem Inv.loop_removeFree {env : Sympy V K} {I : Mdl V K → Prop} {cond : List (V × K)}
    (hI : Inv env cond I) : ∀ {l : List V} {N N' : Mdl V K}, I N →
    loop (removeFree env cond) N l = .ok N' → I N'
  | [], N, N', h, hl => by
    cases hl
    exact h
  | v :: l, N, N', h, hl => by
    obtain ⟨N₁, h1, h2⟩ := loop_cons hl
    refine Inv.loop_removeFree hI ?_ h2
    rw [removeFree] at h1
    split at h1
    · rename_i hf
      exact hI.eliminate h (find_cond hf) h1
    · rename_i p hf
      have hm := List.mem_of_find?_eq_some hf
      have he := List.find?_some hf
      simp only [decide_eq_true_eq] at he
      refine hI.condition (v := v) (x := p.2) h ?_ h1
      rw [← he]
      simpa using hm

theorem constIn_substAll {env : Sympy V K} {d : List (V × Expr V K)} {u v : V} {s : Expr V K}
    (h : ∀ e, (v, e) ∈ d → e.vars = []) : ∀ e, (v, e) ∈ substAll env d u s → e.vars = [] := by
  intro e he
  obtain ⟨q, hq, hqe⟩ := mem_substAll.1 he
  split_ifs at hqe with hu
  · have h1 : q.1 = v := (Prod.ext_iff.1 hqe).1
    have := h q.2 (by rw [← h1]; exact hq)
    rw [this] at hu
    simp at hu
  · subst hqe
    exact h e hq

theorem Inv.loop_propagate {env : Sympy V K} {I : Mdl V K → Prop} {cond : List (V × K)} {wanted : List V}
    (hI : Inv env cond I) : ∀ {l : List V} {N N' : Mdl V K}, I N → (∀ v ∈ l, ConstIn N v) →
    loop (Mdl.propagate env wanted) N l = .ok N' → I N'
  | [], N, N', h, _, hl => by
    cases hl
    exact h
  | v :: l, N, N', h, hv, hl => by
    obtain ⟨N₁, h1, h2⟩ := loop_cons hl
    obtain ⟨hvf, hve⟩ := hv v (by simp)
    have hl' : ∀ w ∈ l, ConstIn N w := fun w hw => hv w (by simp [hw])
    rw [Mdl.propagate] at h1
    split_ifs at h1 with hw
    · cases he : lookup N.eqs v with
      | error x => rw [he] at h1; cases h1
      | ok e =>
        rw [he] at h1
        cases h1
        refine Inv.loop_propagate hI (hI.propagate h (lookup_ok he)) (fun w hw => ⟨(hl' w hw).1, ?_⟩) h2
        exact constIn_substAll (hl' w hw).2
    · refine Inv.loop_propagate hI (hI.const h ⟨hvf, hve⟩ h1) (fun w hw => ?_) h2
      obtain ⟨-, e, -, rfl⟩ := eliminate_dep hvf h1
      refine ⟨(hl' w hw).1, constIn_substAll fun e he => (hl' w hw).2 e (List.mem_filter.1 he).1⟩

theorem filterMapM_ok {α β : Type} {f : α → Except MErr (Option β)} : ∀ {l : List α} {r : List β},
    l.filterMapM f = .ok r → ∀ b ∈ r, ∃ a ∈ l, f a = .ok (some b)
  | [], r, h, b, hb => by
    rw [List.filterMapM_nil] at h
    cases h
    simp at hb
  | a :: l, r, h, b, hb => by
    rw [List.filterMapM_cons] at h
    obtain ⟨o, ho, h⟩ := bind_ok.1 h
    cases o with
    | none =>
      obtain ⟨a', h1, h2⟩ := filterMapM_ok h b hb
      exact ⟨a', by simp [h1], h2⟩
    | some c =>
      obtain ⟨r', hr, h⟩ := bind_ok.1 h
      cases h
      rcases List.mem_cons.1 hb with rfl | hb
      · exact ⟨a, by simp, ho⟩
      · obtain ⟨a', h1, h2⟩ := filterMapM_ok hr b hb
        exact ⟨a', by simp [h1], h2⟩

theorem constants_const {N : Mdl V K} (hN : N.WF) {cs : List V} (h : N.constants = .ok cs) : ∀ v ∈ cs, ConstIn N v := by
  intro v hv
  obtain ⟨w, hw, h1⟩ := filterMapM_ok h v hv
  rw [parents] at h1
  cases he : lookup N.eqs w with
  | error x => rw [he] at h1; cases h1
  | ok e =>
    rw [he] at h1
    simp only [Except.map, Except.ok.injEq] at h1
    split_ifs at h1 with h2
    cases h1
    refine ⟨fun hf => hN.not_both hf hw, fun e' he' => ?_⟩
    rw [hN.key_unique he' (lookup_ok he)]
    rw [List.isEmpty_iff] at h2
    by_contra hne
    obtain ⟨w', hw'⟩ := List.exists_mem_of_ne_nil _ hne
    have := List.mem_dedup.2 hw'
    rw [h2] at this
    simp at this

theorem Inv.inner {env : Sympy V K} {before} {I : Mdl V K → Prop}
    {cond : List (V × K)} {wanted : List V} (hI : Inv env cond I) :
    ∀ {fuel : ℕ} {N N' : Mdl V K} {exch : List V}, I N →
    Mdl.inner env before wanted cond fuel N exch = .ok N' → I N'
  | 0, N, N', exch, h, hl => by cases hl
  | fuel + 1, N, N', exch, h, hl => by
    rw [Mdl.inner] at hl
    dsimp only at hl
    split_ifs at hl with h0 h1
    · cases hl
      exact h
    · obtain ⟨N₁, a, b⟩ := bind_ok.1 hl
      exact Inv.inner hI (hI.loop_removeFree h a) b
    · obtain ⟨anc, a, hl⟩ := bind_ok.1 hl
      split_ifs at hl with h2
      · cases hl
        exact h
      · obtain ⟨ps, b, hl⟩ := bind_ok.1 hl
        split at hl
        · cases hl
          exact h
        · rename_i x fv dv hp
          obtain ⟨N₁, c, hl⟩ := bind_ok.1 hl
          have hN₁ := hI.exchange h c
          split_ifs at hl with h3
          · exact Inv.inner hI hN₁ hl
          · obtain ⟨N₂, d, hl⟩ := bind_ok.1 hl
            refine Inv.inner hI (hI.eliminate hN₁ (fun hv => h1 ?_) d) hl
            have hfree := (varschange_ok c).1
            have : fv ∈ N.removable wanted cond := by
              rw [removable, List.mem_filter]
              refine ⟨hfree, ?_⟩
              simp only [Bool.and_eq_true, decide_eq_true_eq, Bool.or_eq_true]
              exact ⟨h3, Or.inl hv⟩
            exact List.ne_nil_of_mem this

theorem sameSet_iff {a b : List V} : sameSet a b = true ↔ ∀ v, v ∈ a ↔ v ∈ b := by
  rw [sameSet, Bool.and_eq_true, List.all_eq_true, List.all_eq_true]
  simp only [decide_eq_true_eq]
  exact ⟨fun h v => ⟨h.1 v, h.2 v⟩, fun h => ⟨fun v hv => (h v).1 hv, fun v hv => (h v).2 hv⟩⟩

theorem Inv.outer {env : Sympy V K} {before} {I : Mdl V K → Prop}
    {cond : List (V × K)} {wanted : List V} (hI : Inv env cond I) :
    ∀ {fuel : ℕ} {N N' : Mdl V K}, I N →
    Mdl.outer env before wanted cond fuel N = .ok N' → I N' ∧ ∀ v, v ∈ N'.all ↔ v ∈ wanted
  | 0, N, N', h, hl => by cases hl
  | fuel + 1, N, N', h, hl => by
    rw [Mdl.outer] at hl
    dsimp only at hl
    split_ifs at hl with h0 h1
    · cases hl
      exact ⟨h, fun v => (sameSet_iff.1 h0 v).symm⟩
    · obtain ⟨N₁, a, b⟩ := bind_ok.1 hl
      refine Inv.outer hI (hI.loop_eliminate h (fun v hv => ?_) a) b
      rw [dangling, List.mem_filter] at hv
      simp only [Bool.and_eq_true, decide_eq_true_eq] at hv
      exact hv.2.1.2
    · obtain ⟨cs, a, hl⟩ := bind_ok.1 hl
      obtain ⟨N₁, b, hl⟩ := bind_ok.1 hl
      obtain ⟨N₂, c, hl⟩ := bind_ok.1 hl
      exact Inv.outer hI (hI.inner (hI.loop_propagate h (constants_const (hI.wf h) a) b) c) hl

end Mdl
end Pacal.DepVars
