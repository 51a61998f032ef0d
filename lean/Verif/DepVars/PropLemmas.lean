import Verif.DepVars.InferLemmas
import Mathlib.Data.List.Nodup
import Mathlib.Order.Nat

/-!
Further lemmas for C49: the constructor, and solutions from values of the free variables.
-/

set_option linter.unusedSectionVars false

namespace Pacal.DepVars
open Function
variable {V K : Type} [DecidableEq V]

namespace Mdl
open Expr

theorem init_wf {vars rvs : List V} {parentsDep : V → List V} {sym : V → Expr V K} (h1 : vars.Nodup)
    (h2 : ∀ v ∈ rvs ++ rvs.flatMap parentsDep, v ∉ vars)
    (h3 : ∀ v ∈ rvs ++ rvs.flatMap parentsDep, ∀ w ∈ (sym v).vars, w ∈ vars ∨ w ∈ rvs ++ rvs.flatMap parentsDep)
    (h4 : ∃ rank : V → ℕ, ∀ v ∈ rvs ++ rvs.flatMap parentsDep, ∀ w ∈ (sym v).vars, rank w < rank v) :
    (init vars rvs parentsDep sym : Mdl V K).WF := by
  have hn : (vars ++ (rvs ++ rvs.flatMap parentsDep).dedup).Nodup := by
    rw [List.nodup_append']
    refine ⟨h1, List.nodup_dedup _, ?_⟩
    intro v hv hd
    exact h2 v (List.mem_dedup.1 hd) hv
  constructor
  · exact hn
  · show (vars ++ (rvs ++ rvs.flatMap parentsDep).dedup).dedup.Perm _
    rw [hn.dedup]
    exact List.Perm.refl _
  · show (((rvs ++ rvs.flatMap parentsDep).dedup.map fun v => (v, sym v)).map Prod.fst).Perm
      (rvs ++ rvs.flatMap parentsDep).dedup
    rw [List.map_map]
    exact List.Perm.of_eq (List.map_id _)
  · intro p hp w hw
    obtain ⟨v, hv, rfl⟩ := List.mem_map.1 hp
    show w ∈ vars ++ (rvs ++ rvs.flatMap parentsDep).dedup
    rw [List.mem_append, List.mem_dedup]
    exact h3 v (List.mem_dedup.1 hv) w hw
  · obtain ⟨r, hr⟩ := h4
    refine ⟨r, fun p hp w hw => ?_⟩
    obtain ⟨v, hv, rfl⟩ := List.mem_map.1 hp
    exact hr v (List.mem_dedup.1 hv) w hw

theorem determined {M : Mdl V K} (hM : M.WF) {σ τ : V → K} (hσ : M.Sol σ) (hτ : M.Sol τ)
    (hf : ∀ v ∈ M.free, σ v = τ v) : ∀ v ∈ M.all, σ v = τ v := by
  obtain ⟨r, hr⟩ := hM.acyclic
  have : ∀ n v, r v < n → v ∈ M.all → σ v = τ v := by
    intro n
    induction n with
    | zero => intro v hv; omega
    | succ n ih =>
      intro v hv hva
      rcases List.mem_append.1 (hM.all.mem_iff.1 hva) with h | h
      · exact hf v h
      · obtain ⟨p, hp, rfl⟩ := List.mem_map.1 (hM.keys.mem_iff.2 h)
        have h1 := hσ p hp
        have h2 := hτ p hp
        rw [eval_congr (τ := τ) fun w hw => ih w (by have := hr p hp w hw; omega)
          (hM.all.mem_iff.2 (hM.closed p hp w hw)), h2] at h1
        exact (Option.some.inj h1).symm
  exact fun v hv => this (r v + 1) v (by omega) hv

theorem extend {M : Mdl V K} (hM : M.WF) (hT : M.Total) (σ : V → K) :
    ∃ τ, M.Sol τ ∧ ∀ v ∈ M.free, τ v = σ v := by
  classical
  obtain ⟨r, hr⟩ := hM.acyclic
  have : ∀ n, ∃ τ : V → K, (∀ p ∈ M.eqs, r p.1 < n → p.2.eval τ = some (τ p.1)) ∧ ∀ v ∈ M.free, τ v = σ v := by
    intro n
    induction n with
    | zero => exact ⟨σ, fun p _ h => by omega, fun _ _ => rfl⟩
    | succ n ih =>
      obtain ⟨τ, h1, h2⟩ := ih
      let τ' : V → K := fun v =>
        if h : ∃ e, (v, e) ∈ M.eqs ∧ r v = n then (h.choose.eval τ).getD (τ v) else τ v
      have hlow : ∀ v, r v < n → τ' v = τ v := by
        intro v hv
        refine dif_neg ?_
        rintro ⟨e, -, h⟩
        omega
      have hev : ∀ p ∈ M.eqs, r p.1 < n + 1 → p.2.eval τ' = p.2.eval τ := fun p hp hn =>
        eval_congr fun w hw => hlow w (by have := hr p hp w hw; omega)
      refine ⟨τ', fun p hp hn => ?_, fun v hv => ?_⟩
      · rw [hev p hp hn]
        by_cases hpn : r p.1 < n
        · rw [hlow _ hpn]
          exact h1 p hp hpn
        · have hex : ∃ e, (p.1, e) ∈ M.eqs ∧ r p.1 = n := ⟨p.2, hp, by omega⟩
          have hval : τ' p.1 = (hex.choose.eval τ).getD (τ p.1) := dif_pos hex
          rw [hval, hM.key_unique hex.choose_spec.1 (show (p.1, p.2) ∈ M.eqs from hp)]
          obtain ⟨x, hx⟩ := Option.isSome_iff_exists.1 (hT p hp τ)
          rw [hx]
          rfl
      · rw [show τ' v = τ v from dif_neg ?_]
        · exact h2 v hv
        · rintro ⟨e, he, -⟩
          exact hM.not_both hv (hM.key_dep he)
  have hb : ∃ n, ∀ p ∈ M.eqs, r p.1 < n := by
    generalize M.eqs = l
    induction l with
    | nil => exact ⟨0, by simp⟩
    | cons a l ih =>
      obtain ⟨n, hn⟩ := ih
      refine ⟨n + r a.1 + 1, fun p hp => ?_⟩
      rcases List.mem_cons.1 hp with rfl | hp
      · omega
      · have := hn p hp
        omega
  obtain ⟨n, hn⟩ := hb
  obtain ⟨τ, h1, h2⟩ := this n
  exact ⟨τ, fun p hp => h1 p hp (hn p hp), h2⟩

/-- the variables left are among those of the model -/
theorem inv_all {env : Sympy V K} (ho : env.Ok) {M : Mdl V K} {cond : List (V × K)} :
    Inv env cond (fun N => N.WF ∧ ∀ v ∈ N.all, v ∈ M.all) where
  wf h := h.1
  exchange h hs := ⟨varschange_wf ho h.1 hs, fun v hv => h.2 v (step_all (o := .exchange _ _) h.1 hs v hv)⟩
  eliminate h _ hs := ⟨eliminate_wf ho h.1 hs, fun v hv => h.2 v (step_all (o := .eliminate _) h.1 hs v hv)⟩
  condition h _ hs := ⟨condition_wf ho h.1 hs, fun v hv => h.2 v (step_all (o := .condition _ _) h.1 hs v hv)⟩
  const h _ hs := ⟨eliminate_wf ho h.1 hs, fun v hv => h.2 v (step_all (o := .eliminate _) h.1 hs v hv)⟩
  propagate h he := ⟨propagate_wf ho h.1 he, h.2⟩

end Mdl
end Pacal.DepVars
