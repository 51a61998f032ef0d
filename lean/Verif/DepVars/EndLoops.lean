import Verif.DepVars.EndLemmas

/-!
Termination of `inference`: the loops.
-/

set_option linter.unusedSectionVars false

namespace Pacal.DepVars
open Function
variable {V K : Type} [DecidableEq V]

namespace Mdl
open Expr
variable {wanted : List V} {env : Sympy V K} {P : Expr V K → Prop} {cond : List (V × K)}

theorem loop_cons_ok {f : Mdl V K → V → Except MErr (Mdl V K)} {M N M' : Mdl V K} {v : V} {l : List V}
    (h1 : f M v = .ok N) (h2 : loop f N l = .ok M') : loop f M (v :: l) = .ok M' := by
  rw [loop, List.foldlM_cons]
  exact bind_ok.2 ⟨N, h1, h2⟩

theorem ok_bind {α β : Type} (a : α) (f : α → Except MErr β) : ((Except.ok a : Except MErr α) >>= f) = f a := rfl

theorem filterMapM_sublist {α : Type} {f : α → Except MErr (Option α)} (hf : ∀ a b, f a = .ok (some b) → b = a) :
    ∀ {l r : List α}, l.filterMapM f = .ok r → r.Sublist l
  | [], r, h => by
    rw [List.filterMapM_nil] at h
    cases h
    exact List.Sublist.refl _
  | a :: l, r, h => by
    rw [List.filterMapM_cons] at h
    obtain ⟨o, ho, h⟩ := bind_ok.1 h
    cases o with
    | none => exact (filterMapM_sublist hf h).cons a
    | some c =>
      obtain ⟨r', hr, h⟩ := bind_ok.1 h
      cases h
      rw [hf a c ho]
      exact (filterMapM_sublist hf hr).cons_cons a

theorem children_nil {M : Mdl V K} {v : V} : (M.children v).isEmpty = true ↔ ∀ p ∈ M.eqs, v ∉ p.2.vars := by
  rw [children, List.isEmpty_iff, List.map_eq_nil_iff, List.filter_eq_nil_iff]
  simp

/-- the loop over dangling variables -/
theorem loop_dangling (ho : env.Ok) (hP : env.Solves P) : ∀ (l : List V) {N : Mdl V K}, Going P wanted N → l.Nodup →
    (∀ v ∈ l, v ∈ N.dep ∧ v ∉ wanted ∧ ∀ p ∈ N.eqs, v ∉ p.2.vars) →
    ∃ N', loop (Mdl.eliminate env) N l = .ok N' ∧ Going P wanted N' ∧ Shrinks N N' ∧
      (l ≠ [] → N'.size wanted < N.size wanted)
  | [], N, h, _, _ => ⟨N, rfl, h, Shrinks.refl N, fun h => absurd rfl h⟩
  | v :: l, N, h, hn, hl => by
    obtain ⟨h1, h2, h3⟩ := hl v (by simp)
    obtain ⟨N₁, hN₁⟩ := eliminate_isOk (env := env) h.wf (Or.inl h1)
    have hs := eliminate_shrinks h.wf hN₁
    have hgone : N₁.size wanted < N.size wanted := hs.size_gone (h.wf.mem_all.2 (Or.inr h1)) h2 (by
      rw [(eliminate_mem hN₁).2, mem_erase_iff h.wf]
      exact fun hh => hh.1 rfl)
    rw [List.nodup_cons] at hn
    obtain ⟨N', a, b, c, -⟩ := loop_dangling ho hP l (h.eliminate ho hP h2 hN₁) hn.2 (by
      intro w hw
      obtain ⟨k1, k2, k3⟩ := hl w (by simp [hw])
      obtain ⟨-, e, he, rfl⟩ := eliminate_dep (fun hf => h.wf.not_both hf h1) hN₁
      have hne : w ≠ v := fun e => hn.1 (e ▸ hw)
      refine ⟨(List.mem_erase_of_ne hne).2 k1, k2, fun p hp hwp => ?_⟩
      obtain ⟨q, hq, -, hqv⟩ := substAll_vars ho.norm_vars hp
      have hq' := (List.mem_filter.1 hq).1
      rcases hqv w hwp with hw | hw
      · exact k3 q hq' hw.1
      · exact h3 q hq' hw.2)
    exact ⟨N', loop_cons_ok hN₁ a, b, hs.trans c, fun _ => lt_of_le_of_lt c.size hgone⟩

/-- the loop over free variables that are removed -/
theorem loop_free (ho : env.Ok) (hP : env.Solves P) {exch : List V} : ∀ (l : List V) {N : Mdl V K}, Going P wanted N →
    Exch wanted exch N → l.Nodup →
    (∀ v ∈ l, v ∈ N.free ∧ v ∉ wanted ∧ (v ∈ cond.map Prod.fst ∨ ∀ p ∈ N.eqs, v ∉ p.2.vars)) →
    ∃ N', loop (removeFree env cond) N l = .ok N' ∧ Going P wanted N' ∧ Exch wanted exch N' ∧ Shrinks N N' ∧
      ∀ v ∈ l, v ∉ N'.all
  | [], N, h, hx, _, _ => ⟨N, rfl, h, hx, Shrinks.refl N, by simp⟩
  | v :: l, N, h, hx, hn, hl => by
    obtain ⟨h1, h2, h3⟩ := hl v (by simp)
    rw [List.nodup_cons] at hn
    have hfn : N.free.Nodup := (List.nodup_append'.1 h.wf.nodup).1
    have key : ∃ N₁, removeFree env cond N v = .ok N₁ ∧ Going P wanted N₁ ∧ Exch wanted exch N₁ ∧ Shrinks N N₁ ∧
        v ∉ N₁.all ∧ N₁.free = N.free.erase v ∧
        ∀ w, (∀ p ∈ N.eqs, w ∉ p.2.vars) → ∀ p ∈ N₁.eqs, w ∉ p.2.vars := by
      rw [removeFree]
      cases hf : cond.reverse.find? fun p => decide (p.1 = v) with
      | none =>
        have hc : ∀ p ∈ N.eqs, v ∉ p.2.vars := h3.resolve_left (find_cond hf)
        obtain ⟨N₁, hN₁⟩ := eliminate_isOk (env := env) h.wf (Or.inr ⟨h1, hc⟩)
        refine ⟨N₁, hN₁, h.eliminate ho hP h2 hN₁, hx.eliminate_free h.wf h1 hN₁, eliminate_shrinks h.wf hN₁, ?_, ?_⟩
        · rw [(eliminate_mem hN₁).2, mem_erase_iff h.wf]
          exact fun hh => hh.1 rfl
        · obtain ⟨-, rfl⟩ := eliminate_free h1 hN₁
          exact ⟨rfl, fun w hw => hw⟩
      | some p =>
        obtain ⟨N₁, hN₁⟩ := condition_isOk (env := env) h.wf p.2 h1
        refine ⟨N₁, hN₁, h.condition ho hP h2 hN₁, hx.condition ho h.wf hN₁, condition_shrinks hN₁, ?_⟩
        obtain ⟨-, rfl⟩ := condition_ok hN₁
        refine ⟨?_, rfl, fun w hw p hp hwp => ?_⟩
        · dsimp only
          rw [mem_erase_iff h.wf]
          exact fun hh => hh.1 rfl
        · obtain ⟨q, hq, -, hqv⟩ := substAll_vars ho.norm_vars hp
          rcases hqv w hwp with hh | hh
          · exact hw q hq hh.1
          · simp [Expr.vars] at hh
    obtain ⟨N₁, hN₁, g, hx', hs, hv, hf, hq⟩ := key
    obtain ⟨N', a, b, c, d, e⟩ := loop_free ho hP l g hx' hn.2 (by
      intro w hw
      obtain ⟨k1, k2, k3⟩ := hl w (by simp [hw])
      refine ⟨?_, k2, k3.imp id (hq w)⟩
      rw [hf]
      exact hfn.mem_erase_iff.2 ⟨fun e => hn.1 (e ▸ hw), k1⟩)
    refine ⟨N', loop_cons_ok hN₁ a, b, c, hs.trans d, ?_⟩
    intro w hw
    rcases List.mem_cons.1 hw with rfl | hw
    · exact fun hh => hv (d.all _ hh)
    · exact e w hw

/-- constants are wanted and nothing is made of them, except perhaps those in a list -/
def SettledBut (wanted l : List V) (M : Mdl V K) : Prop :=
  ∀ d, M.ConstDep d → d ∈ l ∨ d ∈ wanted ∧ ∀ p ∈ M.eqs, d ∉ p.2.vars

/-- an unwanted free variable occurs in an equation about free variables -/
def Ready (wanted : List V) (M : Mdl V K) : Prop :=
  ∃ u, u ∈ M.free ∧ u ∉ wanted ∧ ∃ p ∈ M.eqs, u ∈ p.2.vars ∧ ∀ w ∈ p.2.vars, w ∈ M.free

/-- the loop over constants -/
theorem loop_const (ho : env.Ok) (hP : env.Solves P) : ∀ (l : List V) {N : Mdl V K}, Going P wanted N →
    (∀ v ∈ l, N.ConstDep v) → l.Nodup →
    ∃ N', loop (Mdl.propagate env wanted) N l = .ok N' ∧ Going P wanted N' ∧ Shrinks N N' ∧
      (N'.size wanted < N.size wanted ∨
        (SettledBut wanted l N → SettledBut wanted [] N') ∧ (Ready wanted N → Ready wanted N'))
  | [], N, h, _, _ => ⟨N, rfl, h, Shrinks.refl N, Or.inr ⟨id, id⟩⟩
  | v :: l, N, h, hl, hn => by
    rw [List.nodup_cons] at hn
    obtain ⟨e, he, he0⟩ := hl v (by simp)
    have hd := h.wf.key_dep he
    have hnf : v ∉ N.free := fun hf => h.wf.not_both hf hd
    by_cases hw : v ∈ wanted
    · obtain ⟨e', hlk⟩ := lookup_isOk (List.mem_map.2 ⟨_, he, rfl⟩)
      obtain rfl := h.wf.key_unique he (lookup_ok hlk)
      have hstep : Mdl.propagate env wanted N v = .ok { N with eqs := substAll env N.eqs v e } := by
        rw [Mdl.propagate, if_neg (not_not.2 hw), hlk]
        rfl
      have hs : Shrinks N { N with eqs := substAll env N.eqs v e } := propagate_shrinks
      obtain ⟨N', a, b, c, hor⟩ := loop_const ho hP l (h.propagate ho hP he)
        (fun w hw => hs.const w (h.wf.mem_all.2 (Or.inr (h.wf.constDep_dep (hl w (by simp [hw]))))) (hl w (by simp [hw])))
        hn.2
      refine ⟨N', loop_cons_ok hstep a, b, hs.trans c, ?_⟩
      by_cases hnew : ∃ d ∈ N.all, ¬ N.ConstDep d ∧ ConstDep { N with eqs := substAll env N.eqs v e } d
      · obtain ⟨d, h1, h2, h3⟩ := hnew
        exact Or.inl (lt_of_le_of_lt c.size (hs.size_const h1 h2 h3))
      · push Not at hnew
        refine hor.imp (fun hlt => lt_of_lt_of_le hlt hs.size) fun hd' => ⟨fun hS => hd'.1 ?_, fun hR => hd'.2 ?_⟩
        · intro d hdc
          have hvars : ∀ w, (∀ p ∈ N.eqs, w ∉ p.2.vars) → ∀ p ∈ substAll env N.eqs v e, w ∉ p.2.vars := by
            intro w hw p hp hwp
            obtain ⟨q, hq, -, hqv⟩ := substAll_vars ho.norm_vars hp
            rcases hqv w hwp with hh | hh
            · exact hw q hq hh.1
            · rw [he0] at hh
              simp at hh
          have hdall : d ∈ N.all := by
            have := (propagate_wf ho h.wf he).constDep_dep hdc
            exact h.wf.mem_all.2 (Or.inr this)
          have hdN : N.ConstDep d := by
            by_contra hh
            exact hnew d hdall hh hdc
          rcases hS d hdN with hh | hh
          · rcases List.mem_cons.1 hh with rfl | hh
            · refine Or.inr ⟨hw, fun p hp hwp => ?_⟩
              obtain ⟨q, hq, -, hqv⟩ := substAll_vars ho.norm_vars hp
              rcases hqv d hwp with hh | hh
              · exact hh.2 rfl
              · rw [he0] at hh
                simp at hh
            · exact Or.inl hh
          · exact Or.inr ⟨hh.1, hvars d hh.2⟩
        · obtain ⟨u, u1, u2, p, hp, up, hpf⟩ := hR
          refine ⟨u, u1, u2, p, mem_substAll.2 ⟨p, hp, if_neg fun hv => hnf (hpf v hv)⟩, up, hpf⟩
    · obtain ⟨N₁, hN₁⟩ := eliminate_isOk (env := env) h.wf (Or.inl hd)
      have hs := eliminate_shrinks h.wf hN₁
      have hstep : Mdl.propagate env wanted N v = .ok N₁ := by
        rw [Mdl.propagate, if_pos hw]
        exact hN₁
      have hall := (eliminate_mem hN₁).2
      have hgone : N₁.size wanted < N.size wanted := hs.size_gone (h.wf.mem_all.2 (Or.inr hd)) hw (by
        rw [hall, mem_erase_iff h.wf]
        exact fun hh => hh.1 rfl)
      obtain ⟨N', a, b, c, -⟩ := loop_const ho hP l (h.eliminate ho hP hw hN₁) (by
        intro w hw
        refine hs.const w ?_ (hl w (by simp [hw]))
        rw [hall, mem_erase_iff h.wf]
        exact ⟨fun e => hn.1 (show v ∈ l from (show w = v from e) ▸ hw),
          h.wf.mem_all.2 (Or.inr (h.wf.constDep_dep (hl w (by simp [hw]))))⟩) hn.2
      exact ⟨N', loop_cons_ok hstep a, b, hs.trans c, Or.inl (lt_of_le_of_lt c.size hgone)⟩

/-! ### the inner loop -/

/-- the variables that have not been exchanged -/
def rest (exch : List V) (M : Mdl V K) : Finset V := M.all.toFinset.filter fun v => v ∉ exch

theorem rest_subset {exch : List V} {M M' : Mdl V K} (h : Shrinks M M') : rest exch M' ⊆ rest exch M := by
  intro v hv
  simp only [rest, Finset.mem_filter, List.mem_toFinset] at hv ⊢
  exact ⟨h.all v hv.1, hv.2⟩

theorem rest_gone {exch : List V} {M M' : Mdl V K} (h : Shrinks M M') {v : V} (h1 : v ∈ M.all) (h2 : v ∉ exch)
    (h3 : v ∉ M'.all) : (rest exch M').card < (rest exch M).card := by
  refine Finset.card_lt_card ⟨rest_subset h, fun hs => h3 ?_⟩
  have : v ∈ rest exch M := by simp [rest, h1, h2]
  have := hs this
  simp only [rest, Finset.mem_filter, List.mem_toFinset] at this
  exact this.1

theorem rest_add {exch : List V} {M M' : Mdl V K} (h : Shrinks M M') {v : V} (h1 : v ∈ M.all) (h2 : v ∉ exch) :
    (rest (v :: exch) M').card < (rest exch M).card := by
  refine Finset.card_lt_card ⟨fun w hw => ?_, fun hs => ?_⟩
  · simp only [rest, Finset.mem_filter, List.mem_toFinset, List.mem_cons, not_or] at hw ⊢
    exact ⟨h.all w hw.1, hw.2.2⟩
  · have : v ∈ rest exch M := by simp [rest, h1, h2]
    have := hs this
    simp [rest] at this

theorem WF.nodup_free {M : Mdl V K} (h : M.WF) : M.free.Nodup := (List.nodup_append'.1 h.nodup).1

theorem WF.nodup_dep {M : Mdl V K} (h : M.WF) : M.dep.Nodup := (List.nodup_append'.1 h.nodup).2.1

/-- no constants appear: those that are settled stay so -/
theorem exchange_settled (ho : env.Ok) {M M' : Mdl V K} (hM : M.WF) {fv dv : V}
    (hs : M.varschange env fv dv = .ok M') (hS : SettledBut wanted [] M) :
    M'.size wanted < M.size wanted ∨ SettledBut wanted [] M' := by
  have hsh := exchange_shrinks hM hs
  by_cases hnew : ∃ d ∈ M.all, ¬ M.ConstDep d ∧ M'.ConstDep d
  · obtain ⟨d, h1, h2, h3⟩ := hnew
    exact Or.inl (hsh.size_const h1 h2 h3)
  · push Not at hnew
    right
    intro d hd
    have hM' := varschange_wf ho hM hs
    have hdall : d ∈ M.all := hsh.all d (hM'.mem_all.2 (Or.inr (hM'.constDep_dep hd)))
    have hdM : M.ConstDep d := by
      by_contra hh
      exact hnew d hdall hh hd
    obtain ⟨h1, h2⟩ := (hS d hdM).resolve_left (by simp)
    refine Or.inr ⟨h1, fun p hp hdp => ?_⟩
    obtain ⟨k1, k2, e, inv, he, k3, k4, k5, rfl⟩ := varschange_ok hs
    have hmem := lookup_ok he
    have hinv : d ∉ inv.vars := by
      intro hh
      rcases ho.solve_vars e dv fv inv k5 (hM.not_self hmem) k3 d hh with rfl | hh
      · obtain ⟨c, hc, hc0⟩ := hdM
        rw [hM.key_unique hmem hc, hc0] at k3
        simp at k3
      · exact h2 _ hmem hh.1
    dsimp only at hp
    rw [varschange_eqs hM k1] at hp
    rcases List.mem_append.1 hp with hp | hp
    · obtain ⟨q, hq, -, hqv⟩ := substAll_vars ho.norm_vars hp
      rcases hqv d hdp with hh | hh
      · exact h2 q (List.mem_filter.1 hq).1 hh.1
      · exact hinv hh.1
    · rw [List.mem_singleton.1 hp] at hdp
      exact hinv hdp

/-- some dependent variable outside of a list that is not constant has an equation about free variables -/
theorem exists_exchangeable {M : Mdl V K} (hM : M.WF) {exch : List V} (hx : Exch wanted exch M)
    (hS : SettledBut wanted [] M) (h : ∃ d ∈ M.dep, d ∉ exch ∧ ¬ M.ConstDep d) :
    ∃ d e, (d, e) ∈ M.eqs ∧ d ∉ exch ∧ e.vars ≠ [] ∧ ∀ w ∈ e.vars, w ∈ M.free := by
  obtain ⟨r, hr⟩ := hM.acyclic
  obtain ⟨d, hd⟩ := h
  have key : ∀ n d, r d ≤ n → d ∈ M.dep → d ∉ exch → ¬ M.ConstDep d →
      ∃ d e, (d, e) ∈ M.eqs ∧ d ∉ exch ∧ e.vars ≠ [] ∧ ∀ w ∈ e.vars, w ∈ M.free := by
    intro n
    induction n with
    | zero =>
      intro d hrd hd hdx hdc
      obtain ⟨e, he⟩ := hM.has_eq hd
      have h0 : e.vars = [] := by
        by_contra hne
        obtain ⟨w, hw⟩ := List.exists_mem_of_ne_nil _ hne
        have : r w < r d := hr _ he w hw
        omega
      exact absurd ⟨e, he, h0⟩ hdc
    | succ n ih =>
      intro d hrd hd hdx hdc
      obtain ⟨e, he⟩ := hM.has_eq hd
      by_cases hf : ∀ w ∈ e.vars, w ∈ M.free
      · exact ⟨d, e, he, hdx, fun h0 => hdc ⟨e, he, h0⟩, hf⟩
      · push Not at hf
        obtain ⟨w, hw, hwf⟩ := hf
        have hlt : r w < r d := hr _ he w hw
        refine ih w (by omega) ?_ (hx.none _ he w hw) fun hc => ?_
        · rcases List.mem_append.1 (hM.closed _ he w hw) with h | h
          · exact absurd h hwf
          · exact h
        · exact ((hS w hc).resolve_left (by simp)).2 _ he hw
  exact key _ d (le_refl _) hd.1 hd.2.1 hd.2.2

theorem inner_ends (ho : env.Ok) (hP : env.Solves P) {before} (hb : SortsByKey before) :
    ∀ {fuel : ℕ} {M : Mdl V K} {exch : List V}, Going P wanted M → Exch wanted exch M → (rest exch M).card < fuel →
    ∃ M', inner env before wanted cond fuel M exch = .ok M' ∧ Going P wanted M' ∧ Shrinks M M' ∧
      (SettledBut wanted [] M → M'.size wanted < M.size wanted ∨ (∀ v ∈ M'.all, v ∈ wanted) ∨ Ready wanted M') ∧
      (exch = [] → Ready wanted M → M'.size wanted < M.size wanted)
  | 0, _, _, _, _, h => absurd h (Nat.not_lt_zero _)
  | fuel + 1, M, exch, hM, hx, hfuel => by
    rw [Mdl.inner]
    dsimp only
    by_cases h0 : sameSet (wanted ++ exch) M.all = true
    · rw [if_pos h0]
      rw [sameSet_iff] at h0
      have hall : ∀ v ∈ M.all, v ∈ wanted := by
        intro v hv
        rcases List.mem_append.1 ((h0 v).2 hv) with h | h
        · exact h
        · exact hx.want v h
      refine ⟨M, rfl, hM, Shrinks.refl M, fun _ => Or.inr (Or.inl hall), ?_⟩
      rintro - ⟨u, u1, u2, -⟩
      exact absurd (hall u (hM.wf.mem_all.2 (Or.inl u1))) u2
    rw [if_neg h0]
    by_cases h1 : M.removable wanted cond ≠ []
    · rw [if_pos h1]
      have hmem : ∀ v ∈ M.removable wanted cond, v ∈ M.free ∧ v ∉ wanted ∧
          (v ∈ cond.map Prod.fst ∨ ∀ p ∈ M.eqs, v ∉ p.2.vars) := by
        intro v hv
        rw [removable, List.mem_filter] at hv
        simp only [Bool.and_eq_true, decide_eq_true_eq, Bool.or_eq_true, children_nil] at hv
        exact hv
      obtain ⟨N, a, b, c, d, e⟩ := loop_free (cond := cond) ho hP _ hM hx (hM.wf.nodup_free.filter _) hmem
      obtain ⟨v, hv⟩ := List.exists_mem_of_ne_nil _ h1
      obtain ⟨v1, v2, -⟩ := hmem v hv
      have hva := hM.wf.mem_all.2 (Or.inl v1)
      have hlt : N.size wanted < M.size wanted := d.size_gone hva v2 (e v hv)
      have hr := rest_gone (exch := exch) d hva (fun h => v2 (hx.want v h)) (e v hv)
      obtain ⟨M', a', b', c', -, -⟩ := inner_ends ho hP hb b c (lt_of_lt_of_le hr (Nat.lt_succ_iff.1 hfuel))
      have hlt' : M'.size wanted < M.size wanted := lt_of_le_of_lt c'.size hlt
      exact ⟨M', bind_ok.2 ⟨N, a, a'⟩, b', d.trans c', fun _ => Or.inl hlt', fun _ _ => hlt'⟩
    rw [if_neg h1]
    rw [not_not] at h1
    -- an unwanted free variable has a child
    have hchild : ∀ v ∈ M.free, v ∉ wanted → ∃ p ∈ M.eqs, v ∈ p.2.vars := by
      intro v hv hvw
      by_contra hh
      push Not at hh
      have : v ∈ M.removable wanted cond := by
        rw [removable, List.mem_filter]
        simp only [Bool.and_eq_true, decide_eq_true_eq, Bool.or_eq_true, children_nil]
        exact ⟨hv, hvw, Or.inr hh⟩
      rw [h1] at this
      simp at this
    have hun : ∃ v ∈ M.all, v ∉ wanted := by
      by_contra hh
      push Not at hh
      refine h0 (sameSet_iff.2 fun v => ⟨fun hv => ?_, fun hv => List.mem_append_left _ (hh v hv)⟩)
      rcases List.mem_append.1 hv with h | h
      · exact hM.want v h
      · exact hM.want v (hx.want v h)
    obtain ⟨anc, hanc, hanc'⟩ := depAndAnc_isOk hM.wf exch
    rw [hanc]
    simp only [ok_bind]
    by_cases h2 : ∀ v ∈ anc, v ∈ wanted
    · rw [if_pos h2]
      have hR : ∀ v ∈ M.all, v ∉ wanted → Ready wanted M ∧ exch ≠ [] := by
        intro v hv hvw
        rcases hM.wf.mem_all.1 hv with hf | hd
        · obtain ⟨p, hp, hvp⟩ := hchild v hf hvw
          by_cases hpx : p.1 ∈ exch
          · exact ⟨⟨v, hf, hvw, p, hp, hvp, hx.vars p hp hpx⟩, List.ne_nil_of_mem hpx⟩
          · exact absurd (h2 v ((hanc' p.1 (hM.wf.key_dep hp) hpx).2 p.2 hp v hvp)) hvw
        · exact absurd (h2 v (hanc' v hd fun h => hvw (hx.want v h)).1) hvw
      refine ⟨M, rfl, hM, Shrinks.refl M, fun _ => ?_, fun he _ => ?_⟩
      · obtain ⟨v, hv, hvw⟩ := hun
        exact Or.inr (Or.inr (hR v hv hvw).1)
      · obtain ⟨v, hv, hvw⟩ := hun
        exact absurd he (hR v hv hvw).2
    rw [if_neg h2]
    obtain ⟨ps, hps, hps1, hps2⟩ := pairs_isOk (wanted := wanted) hM.wf exch
    rw [hps]
    simp only [ok_bind]
    cases hfp : firstPair before ps with
    | none =>
      have hnil := firstPair_none hfp
      subst hnil
      dsimp only
      have hnone : ∀ d e, (d, e) ∈ M.eqs → d ∉ exch → (∀ w ∈ e.vars, w ∈ M.free) → e.vars = [] := by
        intro d e he hd hf
        by_contra hne
        obtain ⟨w, hw⟩ := List.exists_mem_of_ne_nil _ hne
        obtain ⟨p, hp, -⟩ := hps2 d e he hd hf w hw
        simp at hp
      refine ⟨M, rfl, hM, Shrinks.refl M, fun hS => Or.inr (Or.inr ?_), ?_⟩
      · have hconst : ∀ d ∈ M.dep, d ∉ exch → M.ConstDep d := by
          intro d hd hdx
          by_contra hc
          obtain ⟨d', e, he, hd', hne, hf⟩ := exists_exchangeable hM.wf hx hS ⟨d, hd, hdx, hc⟩
          exact hne (hnone d' e he hd' hf)
        obtain ⟨v, hv, hvw⟩ := hun
        rcases hM.wf.mem_all.1 hv with hf | hd
        · obtain ⟨p, hp, hvp⟩ := hchild v hf hvw
          have hpx : p.1 ∈ exch := by
            by_contra hh
            obtain ⟨e, he, he0⟩ := hconst p.1 (hM.wf.key_dep hp) hh
            rw [hM.wf.key_unique hp he, he0] at hvp
            simp at hvp
          exact ⟨v, hf, hvw, p, hp, hvp, hx.vars p hp hpx⟩
        · exact absurd ((hS v (hconst v hd fun h => hvw (hx.want v h))).resolve_left (by simp)).1 hvw
      · rintro rfl ⟨u, u1, u2, p, hp, up, hpf⟩
        rw [hnone p.1 p.2 hp (by simp) hpf] at up
        simp at up
    | some t =>
      obtain ⟨key, fv, dv⟩ := t
      dsimp only
      have hin := firstPair_mem hfp
      obtain ⟨g1, g2, g3, e, he, hfe, hef⟩ := hps1 _ hin
      dsimp only at g1 g2 g3 he hfe
      obtain ⟨s, hsol, -⟩ := hP.unique e dv fv (hM.solv _ he) (hM.wf.not_self he) hfe
      obtain ⟨N, hN⟩ := varschange_isOk (env := env) hM.wf (hef fv hfe) he hfe hef hsol
      have hNg := hM.exchange ho hP hN
      have hsh := exchange_shrinks hM.wf hN
      obtain ⟨hNx, k1, k2, k3⟩ := hx.exchange ho hM.wf g1 hN
      have hfvx : fv ∉ exch := fun h => hM.wf.not_both (hef fv hfe) (hx.dep fv h)
      have hfva : fv ∈ M.all := hM.wf.mem_all.2 (Or.inl (hef fv hfe))
      rw [hN]
      simp only [ok_bind]
      by_cases hw : fv ∉ wanted
      · rw [if_pos hw]
        obtain ⟨N₂, hN₂⟩ := eliminate_isOk (env := env) hNg.wf (Or.inl k1)
        have hsh₂ := hsh.trans (eliminate_shrinks hNg.wf hN₂)
        have hgone : fv ∉ N₂.all := by
          rw [(eliminate_mem hN₂).2, mem_erase_iff hNg.wf]
          exact fun hh => hh.1 rfl
        have hlt : N₂.size wanted < M.size wanted := hsh₂.size_gone hfva hw hgone
        obtain ⟨M', a', b', c', -, -⟩ := inner_ends ho hP hb (hNg.eliminate ho hP hw hN₂)
          (hNx.eliminate_leaf ho hNg.wf k1 hw k3 hN₂)
          (lt_of_lt_of_le (rest_gone (exch := exch) hsh₂ hfva hfvx hgone) (Nat.lt_succ_iff.1 hfuel))
        have hlt' : M'.size wanted < M.size wanted := lt_of_le_of_lt c'.size hlt
        exact ⟨M', bind_ok.2 ⟨N₂, hN₂, a'⟩, b', hsh₂.trans c', fun _ => Or.inl hlt', fun _ _ => hlt'⟩
      · rw [if_neg hw]
        rw [not_not] at hw
        obtain ⟨M', a', b', c', d', -⟩ := inner_ends ho hP hb hNg (hNx.add hNg.wf hw k1 k2 k3)
          (lt_of_lt_of_le (rest_add hsh hfva hfvx) (Nat.lt_succ_iff.1 hfuel))
        refine ⟨M', a', b', hsh.trans c', fun hS => ?_, ?_⟩
        · rcases exchange_settled ho hM.wf hN hS with h | h
          · exact Or.inl (lt_of_le_of_lt c'.size h)
          · exact (d' h).imp (fun h => lt_of_lt_of_le h hsh.size) id
        · rintro rfl ⟨u, u1, u2, p, hp, up, hpf⟩
          obtain ⟨q, hq, hq2⟩ := hps2 p.1 p.2 hp (by simp) hpf u up
          have h3 := firstPair_key hb hfp q hq
          have h4 := (hps1 q hq).2.1.2 (by rw [hq2]; exact u2)
          dsimp only at h3
          rw [h4] at h3
          exact absurd (g2.1 (le_antisymm h3 g3)) (not_not.2 hw)

theorem card_all_le {M M' : Mdl V K} (h : Shrinks M M') : M'.all.toFinset.card ≤ M.all.toFinset.card := by
  refine Finset.card_le_card fun v hv => ?_
  rw [List.mem_toFinset] at hv ⊢
  exact h.all v hv

theorem rest_le (exch : List V) (M : Mdl V K) : (rest exch M).card ≤ M.all.toFinset.card :=
  Finset.card_le_card (Finset.filter_subset _ _)

/-- the outer loop -/
theorem outer_ends (ho : env.Ok) (hP : env.Solves P) {before} (hb : SortsByKey before) :
    ∀ (n : ℕ) {fuel : ℕ} {M : Mdl V K}, Going P wanted M →
    (2 * M.size wanted < n ∨ 2 * M.size wanted < n + 1 ∧ Ready wanted M) → M.all.toFinset.card + n + 1 < fuel →
    ∃ M', outer env before wanted cond fuel M = .ok M'
  | n, 0, _, _, _, h => absurd h (Nat.not_lt_zero _)
  | n, fuel + 1, M, hM, hn, hfuel => by
    rw [outer]
    dsimp only
    by_cases h0 : sameSet wanted M.all = true
    · rw [if_pos h0]
      exact ⟨M, rfl⟩
    rw [if_neg h0]
    have hpos : 0 < M.size wanted := by
      have hun : ∃ v ∈ M.all, v ∉ wanted := by
        by_contra hh
        push Not at hh
        exact h0 (sameSet_iff.2 fun v => ⟨hM.want v, hh v⟩)
      obtain ⟨v, hv, hvw⟩ := hun
      exact Nat.add_pos_left (Finset.card_pos.2 ⟨v, mem_unwanted.2 ⟨hv, hvw⟩⟩) _
    obtain ⟨m, rfl⟩ : ∃ m, n = m + 1 := ⟨n - 1, by omega⟩
    by_cases h1 : M.dangling wanted cond ≠ []
    · rw [if_pos h1]
      obtain ⟨N, a, b, c, d⟩ := loop_dangling ho hP (M.dangling wanted cond) hM (hM.wf.nodup_dep.filter _) (by
        intro v hv
        rw [dangling, List.mem_filter] at hv
        simp only [Bool.and_eq_true, decide_eq_true_eq, children_nil] at hv
        exact ⟨hv.1, hv.2.1.1, hv.2.2⟩)
      have hlt := d h1
      obtain ⟨M', h⟩ := outer_ends ho hP hb m (fuel := fuel) b (Or.inl (by omega)) (by
        have := card_all_le c
        omega)
      exact ⟨M', bind_ok.2 ⟨N, a, h⟩⟩
    rw [if_neg h1]
    obtain ⟨cs, hcs, hcs'⟩ := constants_isOk hM.wf
    have hcs2 : ∀ v ∈ cs, M.ConstDep v ∧ v ∈ M.dep := by
      intro v hv
      obtain ⟨w, hw, h2⟩ := filterMapM_ok hcs v hv
      obtain ⟨e, he⟩ := hM.wf.has_eq hw
      rw [parents_isOk hM.wf he] at h2
      simp only [Except.map, Except.ok.injEq] at h2
      split_ifs at h2 with h3
      cases h2
      exact ⟨⟨e, he, (constants_const hM.wf hcs v hv).2 e he⟩, hw⟩
    obtain ⟨N, a, b, c, d⟩ := loop_const (wanted := wanted) ho hP cs hM (fun v hv => (hcs2 v hv).1) (by
      refine (filterMapM_sublist (fun x y h => ?_) hcs).nodup hM.wf.nodup_dep
      cases hp : M.parents x with
      | error z => rw [hp] at h; cases h
      | ok z =>
        rw [hp] at h
        simp only [Except.map, Except.ok.injEq] at h
        split_ifs at h
        exact (Option.some.inj h).symm)
    have hcard := card_all_le c
    obtain ⟨M₂, a₂, b₂, c₂, d₂, e₂⟩ := inner_ends (cond := cond) (fuel := fuel) ho hP hb b (Exch.nil wanted N)
      (by have := rest_le [] N; omega)
    have hcard₂ := card_all_le c₂
    have hgo : ∃ M', outer env before wanted cond fuel M₂ = .ok M' := by
      have s1 := c.size (wanted := wanted)
      have s2 := c₂.size (wanted := wanted)
      have hlt : M₂.size wanted < M.size wanted ∨ 2 * M.size wanted < m + 1 ∧ (∀ v ∈ M₂.all, v ∈ wanted) ∨
          2 * M.size wanted < m + 1 ∧ Ready wanted M₂ := by
        rcases d with d | ⟨d1, d2⟩
        · exact Or.inl (by omega)
        · rcases hn with hn | hn
          · rcases d₂ (d1 fun x hx => Or.inl (hcs' x hx)) with h | h | h
            · exact Or.inl (by omega)
            · exact Or.inr (Or.inl ⟨hn, h⟩)
            · exact Or.inr (Or.inr ⟨hn, h⟩)
          · have := e₂ rfl (d2 hn.2)
            exact Or.inl (by omega)
      rcases hlt with h | h | h
      · exact outer_ends ho hP hb m b₂ (Or.inl (by rcases hn with hn | hn <;> omega)) (by omega)
      · have hf : fuel ≠ 0 := by omega
        obtain ⟨f, rfl⟩ := Nat.exists_eq_succ_of_ne_zero hf
        rw [outer]
        dsimp only
        rw [if_pos (sameSet_iff.2 fun v => ⟨b₂.want v, h.2 v⟩)]
        exact ⟨_, rfl⟩
      · exact outer_ends ho hP hb m b₂ (Or.inr ⟨by omega, h.2⟩) (by omega)
    obtain ⟨M', h⟩ := hgo
    exact ⟨M', bind_ok.2 ⟨cs, hcs, bind_ok.2 ⟨N, a, bind_ok.2 ⟨M₂, a₂, h⟩⟩⟩⟩

end Mdl
end Pacal.DepVars
