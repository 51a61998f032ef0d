import Verif.DepVars.Spec
import Mathlib.Data.List.Nodup

/-!
Lemmas for `Verif.DepVars.Props`.
-/

set_option linter.unusedSectionVars false

namespace Pacal.DepVars
open Function
variable {V K : Type} [DecidableEq V]

namespace Expr

omit [DecidableEq V] in
theorem eval_congr {e : Expr V K} {σ τ : V → K} (h : ∀ v ∈ e.vars, σ v = τ v) : e.eval σ = e.eval τ := by
  induction e with
  | var v => simp [eval, h v (by simp [vars])]
  | const c => rfl
  | un f e ih => rw [eval, eval, ih h]
  | bin f e₁ e₂ ih₁ ih₂ =>
    rw [eval, eval, ih₁ fun v hv => h v (by simp [vars, hv]), ih₂ fun v hv => h v (by simp [vars, hv])]

theorem eval_update {e : Expr V K} {σ : V → K} {v : V} (h : v ∉ e.vars) (x : K) : e.eval (update σ v x) = e.eval σ :=
  eval_congr fun w hw => update_of_ne (fun (he : w = v) => h (he ▸ hw)) _ _

theorem eval_subs_some {v : V} {s e : Expr V K} {σ : V → K} {x : K} (h : s.eval σ = some x) :
    (subs v s e).eval σ = e.eval (update σ v x) := by
  induction e with
  | var w =>
    by_cases hw : w = v
    · subst hw; simp [subs, eval, h]
    · simp [subs, eval, hw]
  | const c => rfl
  | un f e ih => rw [subs, eval, eval, ih]
  | bin f e₁ e₂ ih₁ ih₂ => rw [subs, eval, eval, ih₁, ih₂]

theorem eval_subs_none {v : V} {s e : Expr V K} {σ : V → K} (h : s.eval σ = none) (hv : v ∈ e.vars) :
    (subs v s e).eval σ = none := by
  induction e with
  | var w =>
    simp only [vars, List.mem_singleton] at hv
    subst hv
    simpa [subs] using h
  | const c => simp [vars] at hv
  | un f e ih => rw [subs, eval, ih hv]; rfl
  | bin f e₁ e₂ ih₁ ih₂ =>
    rw [subs, eval]
    rcases List.mem_append.1 hv with hv | hv
    · rw [ih₁ hv]; rfl
    · rw [ih₂ hv]
      cases (subs v s e₁).eval σ <;> rfl

theorem vars_subs {v : V} {s e : Expr V K} {w : V} (h : w ∈ (subs v s e).vars) :
    w ∈ e.vars ∧ w ≠ v ∨ w ∈ s.vars ∧ v ∈ e.vars := by
  induction e with
  | var u =>
    by_cases hu : u = v
    · subst hu
      rw [subs, if_pos rfl] at h
      exact Or.inr ⟨h, by simp [vars]⟩
    · rw [subs, if_neg hu] at h
      simp only [vars, List.mem_singleton] at h ⊢
      exact Or.inl ⟨h, h ▸ hu⟩
  | const c => simp [subs, vars] at h
  | un f e ih => exact ih h
  | bin f e₁ e₂ ih₁ ih₂ =>
    simp only [subs, vars, List.mem_append] at h ⊢
    rcases h with h | h
    · rcases ih₁ h with h | h
      · exact Or.inl ⟨Or.inl h.1, h.2⟩
      · exact Or.inr ⟨h.1, Or.inl h.2⟩
    · rcases ih₂ h with h | h
      · exact Or.inl ⟨Or.inr h.1, h.2⟩
      · exact Or.inr ⟨h.1, Or.inr h.2⟩

theorem total_subs {v : V} {s e : Expr V K} (hs : s.Total) (he : e.Total) : (subs v s e).Total := by
  intro σ
  obtain ⟨x, hx⟩ := Option.isSome_iff_exists.1 (hs σ)
  rw [eval_subs_some hx]
  exact he _

end Expr

namespace Mdl
open Expr

theorem remove_ok {l : List V} {v : V} {r : List V} : remove l v = .ok r ↔ v ∈ l ∧ r = l.erase v := by
  rw [remove]
  split_ifs with h
  · simp [h, eq_comm]
  · simp [h]

theorem delKey_ok {d : List (V × Expr V K)} {v : V} {r : List (V × Expr V K)} :
    delKey d v = .ok r ↔ v ∈ d.map Prod.fst ∧ r = d.filter fun p => decide (p.1 ≠ v) := by
  rw [delKey]
  split_ifs with h
  · simp only [h, true_and, Except.ok.injEq, eq_comm]
  · simp [h]

theorem lookup_ok {d : List (V × Expr V K)} {v : V} {e : Expr V K} (h : lookup d v = .ok e) : (v, e) ∈ d := by
  rw [lookup] at h
  split at h
  · rename_i p hp
    have h1 := List.mem_of_find?_eq_some hp
    have h2 := List.find?_some hp
    simp only [decide_eq_true_eq] at h2
    simp only [Except.ok.injEq] at h
    subst h
    subst h2
    exact h1
  · simp at h

theorem lookup_isOk {d : List (V × Expr V K)} {v : V} (h : v ∈ d.map Prod.fst) : ∃ e, lookup d v = .ok e := by
  rw [lookup]
  cases hf : d.find? fun p => decide (p.1 = v) with
  | some p => exact ⟨p.2, rfl⟩
  | none =>
    obtain ⟨p, hp, rfl⟩ := List.mem_map.1 h
    have := List.find?_eq_none.1 hf p hp
    simp at this

theorem mem_substAll {env : Sympy V K} {d : List (V × Expr V K)} {v : V} {s : Expr V K} {p : V × Expr V K} :
    p ∈ substAll env d v s ↔ ∃ q ∈ d, (if v ∈ q.2.vars then (q.1, env.norm (Expr.subs v s q.2)) else q) = p := by
  rw [substAll, List.mem_map]

theorem substAll_keys (env : Sympy V K) (d : List (V × Expr V K)) (v : V) (s : Expr V K) :
    (substAll env d v s).map Prod.fst = d.map Prod.fst := by
  rw [substAll, List.map_map]
  refine List.map_congr_left fun p _ => ?_
  simp only [comp_apply]
  split_ifs <;> rfl

/-- substituting `s` for `v` does nothing where `v` has the value of `s` -/
theorem substAll_sol {env : Sympy V K} (hn : ∀ e σ, (env.norm e).eval σ = e.eval σ) {d : List (V × Expr V K)} {v : V}
    {s : Expr V K} {σ : V → K} (h : s.eval σ = some (σ v)) :
    (∀ p ∈ substAll env d v s, p.2.eval σ = some (σ p.1)) ↔ ∀ p ∈ d, p.2.eval σ = some (σ p.1) := by
  have key : ∀ q : V × Expr V K, (if v ∈ q.2.vars then (q.1, env.norm (Expr.subs v s q.2)) else q).2.eval σ = q.2.eval σ ∧
      (if v ∈ q.2.vars then (q.1, env.norm (Expr.subs v s q.2)) else q).1 = q.1 := by
    intro q
    split_ifs
    · exact ⟨by rw [hn, eval_subs_some h, update_eq_self], rfl⟩
    · exact ⟨rfl, rfl⟩
  constructor
  · intro h p hp
    have := h _ (mem_substAll.2 ⟨p, hp, rfl⟩)
    rwa [(key p).1, (key p).2] at this
  · intro h p hp
    obtain ⟨q, hq, rfl⟩ := mem_substAll.1 hp
    rw [(key q).1, (key q).2]
    exact h q hq

/-- values after substituting, for an assignment that may disagree at `v`, if no equation is for `v` -/
theorem substAll_sol_update {env : Sympy V K} (hn : ∀ e σ, (env.norm e).eval σ = e.eval σ) {d : List (V × Expr V K)}
    {v : V} (hv : v ∉ d.map Prod.fst) {s : Expr V K} {σ : V → K} {x : K} (h : s.eval σ = some x) :
    (∀ p ∈ substAll env d v s, p.2.eval σ = some (σ p.1)) ↔
      ∀ p ∈ d, p.2.eval (update σ v x) = some (update σ v x p.1) := by
  have key : ∀ q ∈ d, (if v ∈ q.2.vars then (q.1, env.norm (Expr.subs v s q.2)) else q).2.eval σ =
        q.2.eval (update σ v x) ∧
      (if v ∈ q.2.vars then (q.1, env.norm (Expr.subs v s q.2)) else q).1 = q.1 ∧ update σ v x q.1 = σ q.1 := by
    intro q hq
    have h1 : q.1 ≠ v := fun e => hv (List.mem_map.2 ⟨q, hq, e⟩)
    split_ifs with hm
    · exact ⟨by rw [hn, eval_subs_some h], rfl, update_of_ne h1 _ _⟩
    · exact ⟨(eval_update hm x).symm, rfl, update_of_ne h1 _ _⟩
  constructor
  · intro h p hp
    have := h _ (mem_substAll.2 ⟨p, hp, rfl⟩)
    rwa [(key p hp).1, (key p hp).2.1, ← (key p hp).2.2] at this
  · intro h p hp
    obtain ⟨q, hq, rfl⟩ := mem_substAll.1 hp
    rw [(key q hq).1, (key q hq).2.1, ← (key q hq).2.2]
    exact h q hq

theorem substAll_vars {env : Sympy V K} (hn : ∀ e v, v ∈ (env.norm e).vars → v ∈ e.vars) {d : List (V × Expr V K)} {v : V}
    {s : Expr V K} {p : V × Expr V K} (hp : p ∈ substAll env d v s) :
    ∃ q ∈ d, q.1 = p.1 ∧ ∀ w ∈ p.2.vars, w ∈ q.2.vars ∧ w ≠ v ∨ w ∈ s.vars ∧ v ∈ q.2.vars := by
  obtain ⟨q, hq, rfl⟩ := mem_substAll.1 hp
  refine ⟨q, hq, ?_, ?_⟩
  · split_ifs <;> rfl
  · split_ifs with h
    · intro w hw
      exact vars_subs (hn _ _ hw)
    · intro w hw
      exact Or.inl ⟨hw, fun e => h (e ▸ hw)⟩

theorem WF.key_unique {M : Mdl V K} (h : M.WF) {v : V} {e e' : Expr V K} (h1 : (v, e) ∈ M.eqs) (h2 : (v, e') ∈ M.eqs) :
    e = e' := by
  have hk : (M.eqs.map Prod.fst).Nodup := h.keys.nodup_iff.2 (List.nodup_append.1 h.nodup).2.1
  have := List.inj_on_of_nodup_map hk h1 h2 rfl
  exact (Prod.ext_iff.1 this).2

theorem WF.key_dep {M : Mdl V K} (h : M.WF) {p : V × Expr V K} (hp : p ∈ M.eqs) : p.1 ∈ M.dep :=
  h.keys.mem_iff.1 (List.mem_map.2 ⟨p, hp, rfl⟩)

theorem WF.not_both {M : Mdl V K} (h : M.WF) {v : V} (h1 : v ∈ M.free) (h2 : v ∈ M.dep) : False :=
  (List.nodup_append.1 h.nodup).2.2 v h1 v h2 rfl

theorem WF.not_self {M : Mdl V K} (h : M.WF) {p : V × Expr V K} (hp : p ∈ M.eqs) : p.1 ∉ p.2.vars := by
  obtain ⟨r, hr⟩ := h.acyclic
  exact fun hv => (Nat.lt_irrefl _ (hr p hp _ hv))

theorem bind_ok {α β : Type} {x : Except MErr α} {f : α → Except MErr β} {r : β} :
    (x >>= f) = .ok r ↔ ∃ a, x = .ok a ∧ f a = .ok r := by
  cases x with
  | error e =>
    constructor
    · intro h; cases h
    · rintro ⟨a, h, -⟩; cases h
  | ok a =>
    constructor
    · intro h; exact ⟨a, rfl, h⟩
    · rintro ⟨b, h, h'⟩
      cases h
      exact h'

/-! ### exchange -/

/-- what a successful exchange does -/
theorem varschange_ok {env : Sympy V K} {M M' : Mdl V K} {fv dv : V} (h : M.varschange env fv dv = .ok M') :
    fv ∈ M.free ∧ dv ∈ M.dep ∧ ∃ e inv, lookup M.eqs dv = .ok e ∧ fv ∈ e.vars ∧ (∀ s ∈ e.vars, s ∈ M.free) ∧
      solutions env e dv fv = [inv] ∧
      M' = { free := M.free.erase fv ++ [dv], dep := (M.dep ++ [fv]).erase dv, all := M.all,
             eqs := setKey (substAll env (M.eqs.filter fun p => decide (p.1 ≠ dv)) fv inv) fv inv } := by
  rw [varschange] at h
  split_ifs at h with h1 h2
  refine ⟨h1, h2, ?_⟩
  obtain ⟨e, he, h⟩ := bind_ok.1 h
  split_ifs at h with h3 h4
  push Not at h4
  split at h
  · rename_i inv hs
    obtain ⟨fr, hf, h⟩ := bind_ok.1 h
    obtain ⟨dp, hd, h⟩ := bind_ok.1 h
    obtain ⟨es, hq, h⟩ := bind_ok.1 h
    rw [remove_ok] at hf hd
    rw [delKey_ok] at hq
    rw [hf.2, hd.2, hq.2] at h
    cases h
    exact ⟨e, inv, he, h3, h4, hs, rfl⟩
  · cases h

/-- when an exchange succeeds -/
theorem varschange_isOk {env : Sympy V K} {M : Mdl V K} (hM : M.WF) {fv dv : V} (h1 : fv ∈ M.free) {e inv : Expr V K}
    (h2 : (dv, e) ∈ M.eqs) (h3 : fv ∈ e.vars) (h4 : ∀ s ∈ e.vars, s ∈ M.free) (h5 : solutions env e dv fv = [inv]) :
    ∃ M', M.varschange env fv dv = .ok M' := by
  have hk : dv ∈ M.eqs.map Prod.fst := List.mem_map.2 ⟨_, h2, rfl⟩
  have hd : dv ∈ M.dep := hM.keys.mem_iff.1 hk
  obtain ⟨e', he⟩ := lookup_isOk hk
  obtain rfl := hM.key_unique h2 (lookup_ok he)
  refine ⟨{ free := M.free.erase fv ++ [dv], dep := (M.dep ++ [fv]).erase dv, all := M.all,
             eqs := setKey (substAll env (M.eqs.filter fun p => decide (p.1 ≠ dv)) fv inv) fv inv }, ?_⟩
  rw [varschange, if_neg (not_not.2 h1), if_neg (not_not.2 hd)]
  refine bind_ok.2 ⟨e, he, ?_⟩
  rw [if_neg (not_not.2 h3), if_neg (by push Not; exact h4), h5]
  refine bind_ok.2 ⟨_, remove_ok.2 ⟨h1, rfl⟩, bind_ok.2 ⟨_, remove_ok.2 ⟨by simp [hd], rfl⟩,
    bind_ok.2 ⟨_, delKey_ok.2 ⟨hk, rfl⟩, rfl⟩⟩⟩

theorem setKey_new {d : List (V × Expr V K)} {v : V} (h : v ∉ d.map Prod.fst) (e : Expr V K) :
    setKey d v e = d ++ [(v, e)] := if_neg h

theorem varschange_eqs {env : Sympy V K} {M : Mdl V K} (hM : M.WF) {fv dv : V} (h1 : fv ∈ M.free) (inv : Expr V K) :
    setKey (substAll env (M.eqs.filter fun p => decide (p.1 ≠ dv)) fv inv) fv inv =
      substAll env (M.eqs.filter fun p => decide (p.1 ≠ dv)) fv inv ++ [(fv, inv)] := by
  refine setKey_new ?_ inv
  rw [substAll_keys]
  intro h
  obtain ⟨p, hp, e⟩ := List.mem_map.1 h
  exact hM.not_both h1 (e ▸ hM.key_dep (List.mem_filter.1 hp).1)

theorem varschange_sol {env : Sympy V K} (ho : env.Ok) {M M' : Mdl V K} (hM : M.WF) {fv dv : V}
    (h : M.varschange env fv dv = .ok M') (σ : V → K) : M'.Sol σ ↔ M.Sol σ := by
  obtain ⟨h1, h2, e, inv, he, h3, h4, h5, rfl⟩ := varschange_ok h
  have hmem := lookup_ok he
  have hs := ho.solve_eval e dv fv inv h5 (hM.not_self hmem) h3 σ
  rw [Sol, Sol]
  dsimp only
  rw [varschange_eqs hM h1]
  simp only [List.mem_append, List.mem_singleton]
  constructor
  · intro hh
    have hi : inv.eval σ = some (σ fv) := hh (fv, inv) (Or.inr rfl)
    have h6 := (substAll_sol ho.norm_eval hi).1 fun p hp => hh p (Or.inl hp)
    intro p hp
    by_cases hpd : p.1 = dv
    · obtain ⟨v, e'⟩ := p
      dsimp only at hpd
      subst hpd
      obtain rfl := hM.key_unique hmem hp
      exact hs.2 hi
    · exact h6 p (List.mem_filter.2 ⟨hp, by simpa using hpd⟩)
  · intro hh
    have hi : inv.eval σ = some (σ fv) := hs.1 (hh _ hmem)
    rintro p (hp | rfl)
    · exact (substAll_sol ho.norm_eval hi).2 (fun p hp => hh p (List.mem_filter.1 hp).1) p hp
    · exact hi

theorem filter_keys_perm {d : List (V × Expr V K)} (hd : (d.map Prod.fst).Nodup) {v : V} {l : List V}
    (h : (d.map Prod.fst).Perm l) : ((d.filter fun p => decide (p.1 ≠ v)).map Prod.fst).Perm (l.erase v) := by
  have e : (d.filter fun p => decide (p.1 ≠ v)).map Prod.fst = (d.map Prod.fst).filter fun w => decide (w ≠ v) := by
    rw [List.filter_map]
    rfl
  rw [e]
  have h2 := h.erase v
  rw [hd.erase_eq_filter] at h2
  refine List.Perm.trans (List.Perm.of_eq ?_) h2
  congr 1
  funext w
  by_cases hw : w = v <;> simp [hw]

theorem varschange_wf {env : Sympy V K} (ho : env.Ok) {M M' : Mdl V K} (hM : M.WF) {fv dv : V}
    (h : M.varschange env fv dv = .ok M') : M'.WF := by
  obtain ⟨h1, h2, e, inv, he, h3, h4, h5, rfl⟩ := varschange_ok h
  have hmem := lookup_ok he
  have hv := ho.solve_vars e dv fv inv h5 (hM.not_self hmem) h3
  have hne : fv ≠ dv := fun e => hM.not_both h1 (e ▸ h2)
  have hfd : fv ∉ M.dep := fun h => hM.not_both h1 h
  have hde : (M.dep ++ [fv]).erase dv = M.dep.erase dv ++ [fv] := List.erase_append_left _ h2
  have hp : (M.free.erase fv ++ [dv] ++ (M.dep.erase dv ++ [fv])).Perm (M.free ++ M.dep) := by
    have a := List.perm_cons_erase h1
    have b := List.perm_cons_erase h2
    refine List.Perm.trans ?_ (a.append b).symm
    rw [List.append_assoc, List.singleton_append, List.cons_append]
    refine List.Perm.trans ?_ (List.perm_middle (l₁ := M.free.erase fv) (a := fv))
    refine List.Perm.append_left _ ?_
    refine (List.Perm.cons dv (List.perm_append_singleton fv _)).trans (List.Perm.swap _ _ _)
  have hk : (M.eqs.map Prod.fst).Nodup := hM.keys.nodup_iff.2 (List.nodup_append.1 hM.nodup).2.1
  have hfree : ∀ w ∈ inv.vars, w ∈ M.free.erase fv ++ [dv] := by
    intro w hw
    rcases hv w hw with rfl | ⟨hw1, hw2⟩
    · simp
    · exact List.mem_append_left _ ((List.mem_erase_of_ne hw2).2 (h4 w hw1))
  constructor
  · dsimp only
    rw [hde]
    exact hp.nodup_iff.2 hM.nodup
  · dsimp only
    rw [hde]
    exact hM.all.trans hp.symm
  · dsimp only
    rw [varschange_eqs hM h1, hde, List.map_append, substAll_keys]
    exact (filter_keys_perm hk hM.keys).append_right _
  · dsimp only
    rw [varschange_eqs hM h1, hde]
    intro p hpm w hw
    refine hp.mem_iff.2 ?_
    rcases List.mem_append.1 hpm with hpm | hpm
    · obtain ⟨q, hq, -, hqv⟩ := substAll_vars ho.norm_vars hpm
      rcases hqv w hw with h | h
      · exact hM.closed q (List.mem_filter.1 hq).1 w h.1
      · exact hp.mem_iff.1 (List.mem_append_left _ (hfree w h.1))
    · rw [List.mem_singleton] at hpm
      subst hpm
      exact hp.mem_iff.1 (List.mem_append_left _ (hfree w hw))
  · obtain ⟨r, hr⟩ := hM.acyclic
    refine ⟨fun v => if v ∈ M.free.erase fv ++ [dv] then 0 else if v = fv then 1 else r v + 1, ?_⟩
    dsimp only
    rw [varschange_eqs hM h1]
    have hfn : fv ∉ M.free.erase fv ++ [dv] := by
      intro h
      have := (hp.nodup_iff.2 hM.nodup)
      exact (List.nodup_append.1 this).2.2 fv h fv (by simp) rfl
    intro p hpm w hw
    rcases List.mem_append.1 hpm with hpm | hpm
    · obtain ⟨q, hq, hqe, hqv⟩ := substAll_vars ho.norm_vars hpm
      rw [← hqe]
      have hq1 := (List.mem_filter.1 hq).1
      have hqd : q.1 ≠ dv := by simpa using (List.mem_filter.1 hq).2
      have hqf : q.1 ≠ fv := fun e => hfd (e ▸ hM.key_dep hq1)
      have hqn : q.1 ∉ M.free.erase fv ++ [dv] := by
        intro h
        rcases List.mem_append.1 h with h | h
        · exact hM.not_both (List.mem_of_mem_erase h) (hM.key_dep hq1)
        · exact hqd (by simpa using h)
      rw [if_neg hqn, if_neg hqf]
      rcases hqv w hw with h | h
      · split_ifs with c1 c2
        · omega
        · exact absurd c2 h.2
        · have := hr q hq1 w h.1
          omega
      · rw [if_pos (hfree w h.1)]
        omega
    · rw [List.mem_singleton] at hpm
      subst hpm
      dsimp only at hw ⊢
      rw [if_pos (hfree w hw), if_neg hfn, if_pos rfl]
      exact Nat.one_pos

/-! ### elimination -/

theorem eliminate_free {env : Sympy V K} {M M' : Mdl V K} {v : V} (hv : v ∈ M.free) (h : M.eliminate env v = .ok M') :
    (∀ p ∈ M.eqs, v ∉ p.2.vars) ∧ M' = { M with free := M.free.erase v, all := M.all.erase v } := by
  rw [eliminate, if_pos hv] at h
  split_ifs at h with h1
  push Not at h1
  obtain ⟨fr, hf, h⟩ := bind_ok.1 h
  obtain ⟨al, ha, h⟩ := bind_ok.1 h
  rw [remove_ok] at hf ha
  rw [hf.2, ha.2] at h
  cases h
  exact ⟨h1, rfl⟩

theorem eliminate_dep {env : Sympy V K} {M M' : Mdl V K} {v : V} (hv : v ∉ M.free) (h : M.eliminate env v = .ok M') :
    v ∈ M.dep ∧ ∃ e, lookup M.eqs v = .ok e ∧
      M' = { M with dep := M.dep.erase v, all := M.all.erase v,
                    eqs := substAll env (M.eqs.filter fun p => decide (p.1 ≠ v)) v e } := by
  rw [eliminate, if_neg hv] at h
  split_ifs at h with h1
  refine ⟨h1, ?_⟩
  obtain ⟨e, he, h⟩ := bind_ok.1 h
  obtain ⟨es, hes, h⟩ := bind_ok.1 h
  obtain ⟨dp, hd, h⟩ := bind_ok.1 h
  obtain ⟨al, ha, h⟩ := bind_ok.1 h
  rw [remove_ok] at hd ha
  rw [delKey_ok] at hes
  rw [hd.2, ha.2, hes.2] at h
  cases h
  exact ⟨e, he, rfl⟩

theorem eliminate_isOk {env : Sympy V K} {M : Mdl V K} (hM : M.WF) {v : V}
    (h : v ∈ M.dep ∨ v ∈ M.free ∧ ∀ p ∈ M.eqs, v ∉ p.2.vars) : ∃ M', M.eliminate env v = .ok M' := by
  rcases h with h | ⟨h, hc⟩
  · have hk := hM.keys.mem_iff.2 h
    obtain ⟨e, he⟩ := lookup_isOk hk
    rw [eliminate, if_neg fun hf => hM.not_both hf h, if_pos h]
    exact ⟨_, bind_ok.2 ⟨e, he, bind_ok.2 ⟨_, delKey_ok.2 ⟨hk, rfl⟩, bind_ok.2 ⟨_, remove_ok.2 ⟨h, rfl⟩,
      bind_ok.2 ⟨_, remove_ok.2 ⟨hM.all.mem_iff.2 (by simp [h]), rfl⟩, rfl⟩⟩⟩⟩⟩
  · rw [eliminate, if_pos h, if_neg (by push Not; exact hc)]
    exact ⟨_, bind_ok.2 ⟨_, remove_ok.2 ⟨h, rfl⟩,
      bind_ok.2 ⟨_, remove_ok.2 ⟨hM.all.mem_iff.2 (by simp [h]), rfl⟩, rfl⟩⟩⟩

/-- equations without `v` do not see a change of its value -/
theorem sol_update {M : Mdl V K} {v : V} (h1 : ∀ p ∈ M.eqs, v ∉ p.2.vars) (h2 : v ∉ M.eqs.map Prod.fst) (σ : V → K)
    (x : K) : M.Sol (update σ v x) ↔ M.Sol σ := by
  refine forall₂_congr fun p hp => ?_
  rw [eval_update (h1 p hp), update_of_ne fun e => h2 (List.mem_map.2 ⟨p, hp, e⟩)]

theorem eliminate_free_sol {env : Sympy V K} {M M' : Mdl V K} (hM : M.WF) {v : V} (hv : v ∈ M.free)
    (h : M.eliminate env v = .ok M') (σ : V → K) (x : K) : M'.Sol σ ↔ M.Sol (update σ v x) := by
  obtain ⟨h1, rfl⟩ := eliminate_free hv h
  rw [sol_update h1 fun h => hM.not_both hv (hM.keys.mem_iff.1 h)]
  rfl

theorem split_sol {M : Mdl V K} (hM : M.WF) {v : V} {e : Expr V K} (he : (v, e) ∈ M.eqs) (σ : V → K) :
    M.Sol σ ↔ e.eval σ = some (σ v) ∧ ∀ p ∈ M.eqs.filter fun p => decide (p.1 ≠ v), p.2.eval σ = some (σ p.1) := by
  constructor
  · exact fun h => ⟨h _ he, fun p hp => h p (List.mem_filter.1 hp).1⟩
  · rintro ⟨h1, h2⟩ p hp
    by_cases hpv : p.1 = v
    · obtain ⟨w, e'⟩ := p
      dsimp only at hpv
      subst hpv
      obtain rfl := hM.key_unique he hp
      exact h1
    · exact h2 p (List.mem_filter.2 ⟨hp, by simpa using hpv⟩)

theorem eliminate_dep_sol {env : Sympy V K} (ho : env.Ok) {M M' : Mdl V K} (hM : M.WF) {v : V} (hv : v ∉ M.free)
    (h : M.eliminate env v = .ok M') {e : Expr V K} (he : (v, e) ∈ M.eqs) (σ : V → K) (x : K) :
    (M'.Sol σ ∧ e.eval σ = some x) ↔ M.Sol (update σ v x) := by
  obtain ⟨h1, e', he', rfl⟩ := eliminate_dep hv h
  obtain rfl := hM.key_unique he (lookup_ok he')
  have hns := hM.not_self he
  have hk : v ∉ (M.eqs.filter fun p => decide (p.1 ≠ v)).map Prod.fst := by
    intro hh
    obtain ⟨p, hp, e⟩ := List.mem_map.1 hh
    simpa [e] using (List.mem_filter.1 hp).2
  rw [split_sol hM he, eval_update hns, update_self, Sol, and_comm]
  refine and_congr_right fun hx => ?_
  exact substAll_sol_update ho.norm_eval hk hx

theorem erase_perm {l r : List V} (h : l.Perm r) (v : V) : (l.erase v).Perm (r.erase v) := h.erase v

theorem eliminate_wf {env : Sympy V K} (ho : env.Ok) {M M' : Mdl V K} (hM : M.WF) {v : V}
    (h : M.eliminate env v = .ok M') : M'.WF := by
  by_cases hv : v ∈ M.free
  · obtain ⟨h1, rfl⟩ := eliminate_free hv h
    have hp : (M.free.erase v ++ M.dep) = (M.free ++ M.dep).erase v := (List.erase_append_left _ hv).symm
    constructor
    · dsimp only
      rw [hp]
      exact hM.nodup.erase v
    · dsimp only
      rw [hp]
      exact hM.all.erase v
    · exact hM.keys
    · intro p hpm w hw
      dsimp only
      rw [hp]
      exact (List.mem_erase_of_ne (fun (e : w = v) => h1 p hpm (e ▸ hw))).2 (hM.closed p hpm w hw)
    · exact hM.acyclic
  · obtain ⟨h1, e, he, rfl⟩ := eliminate_dep hv h
    have hmem := lookup_ok he
    have hp : (M.free ++ M.dep.erase v) = (M.free ++ M.dep).erase v := (List.erase_append_right _ hv).symm
    have hk : (M.eqs.map Prod.fst).Nodup := hM.keys.nodup_iff.2 (List.nodup_append.1 hM.nodup).2.1
    constructor
    · dsimp only
      rw [hp]
      exact hM.nodup.erase v
    · dsimp only
      rw [hp]
      exact hM.all.erase v
    · dsimp only
      rw [substAll_keys]
      exact filter_keys_perm hk hM.keys
    · intro p hpm w hw
      dsimp only
      rw [hp]
      obtain ⟨q, hq, -, hqv⟩ := substAll_vars ho.norm_vars hpm
      rcases hqv w hw with h | h
      · exact (List.mem_erase_of_ne h.2).2 (hM.closed q (List.mem_filter.1 hq).1 w h.1)
      · exact (List.mem_erase_of_ne (fun (c : w = v) => hM.not_self hmem (by rw [c] at h; exact h.1))).2 (hM.closed _ hmem w h.1)
    · obtain ⟨r, hr⟩ := hM.acyclic
      refine ⟨r, fun p hpm w hw => ?_⟩
      obtain ⟨q, hq, hqe, hqv⟩ := substAll_vars ho.norm_vars hpm
      rw [← hqe]
      have hq1 := (List.mem_filter.1 hq).1
      rcases hqv w hw with h | h
      · exact hr q hq1 w h.1
      · exact Nat.lt_trans (hr _ hmem w h.1) (hr q hq1 v h.2)

/-! ### conditioning -/

theorem condition_ok {env : Sympy V K} {M M' : Mdl V K} {v : V} {x : K} (h : M.condition env v x = .ok M') :
    v ∈ M.free ∧ M' = { M with free := M.free.erase v, all := M.all.erase v, eqs := substAll env M.eqs v (.const x) } := by
  rw [condition] at h
  split_ifs at h with h1
  obtain ⟨fr, hf, h⟩ := bind_ok.1 h
  obtain ⟨al, ha, h⟩ := bind_ok.1 h
  rw [remove_ok] at hf ha
  rw [hf.2, ha.2] at h
  cases h
  exact ⟨h1, rfl⟩

theorem condition_isOk {env : Sympy V K} {M : Mdl V K} (hM : M.WF) {v : V} (x : K) (h : v ∈ M.free) :
    ∃ M', M.condition env v x = .ok M' := by
  rw [condition, if_neg (not_not.2 h)]
  exact ⟨_, bind_ok.2 ⟨_, remove_ok.2 ⟨h, rfl⟩,
      bind_ok.2 ⟨_, remove_ok.2 ⟨hM.all.mem_iff.2 (by simp [h]), rfl⟩, rfl⟩⟩⟩

theorem condition_sol {env : Sympy V K} (ho : env.Ok) {M M' : Mdl V K} (hM : M.WF) {v : V} {x : K}
    (h : M.condition env v x = .ok M') (σ : V → K) : M'.Sol σ ↔ M.Sol (update σ v x) := by
  obtain ⟨h1, rfl⟩ := condition_ok h
  exact substAll_sol_update ho.norm_eval (fun hh => hM.not_both h1 (hM.keys.mem_iff.1 hh)) rfl

theorem condition_wf {env : Sympy V K} (ho : env.Ok) {M M' : Mdl V K} (hM : M.WF) {v : V} {x : K}
    (h : M.condition env v x = .ok M') : M'.WF := by
  obtain ⟨h1, rfl⟩ := condition_ok h
  have hp : (M.free.erase v ++ M.dep) = (M.free ++ M.dep).erase v := (List.erase_append_left _ h1).symm
  constructor
  · dsimp only
    rw [hp]
    exact hM.nodup.erase v
  · dsimp only
    rw [hp]
    exact hM.all.erase v
  · dsimp only
    rw [substAll_keys]
    exact hM.keys
  · intro p hpm w hw
    dsimp only
    rw [hp]
    obtain ⟨q, hq, -, hqv⟩ := substAll_vars ho.norm_vars hpm
    rcases hqv w hw with h | h
    · exact (List.mem_erase_of_ne h.2).2 (hM.closed q hq w h.1)
    · simp [vars] at h
  · obtain ⟨r, hr⟩ := hM.acyclic
    refine ⟨r, fun p hpm w hw => ?_⟩
    obtain ⟨q, hq, hqe, hqv⟩ := substAll_vars ho.norm_vars hpm
    rw [← hqe]
    rcases hqv w hw with h | h
    · exact hr q hq w h.1
    · simp [vars] at h

end Mdl
end Pacal.DepVars
