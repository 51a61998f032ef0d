import Verif.DepVars.InferLemmas
import Mathlib.Data.Finset.Card
import Mathlib.Data.Finset.Filter
import Mathlib.Tactic.Linarith

/-!
Lemmas for the termination of `inference`: every round of the outer loop removes a variable, or makes a variable constant,
or is followed by one that does.
-/

set_option linter.unusedSectionVars false

namespace Pacal.DepVars
open Function
variable {V K : Type} [DecidableEq V]

namespace Mdl
open Expr

/-- the variable has an equation without variables -/
def ConstDep (M : Mdl V K) (v : V) : Prop := ∃ e, (v, e) ∈ M.eqs ∧ e.vars = []

open Classical in
/-- unwanted variables -/
noncomputable def unwanted (wanted : List V) (M : Mdl V K) : Finset V := M.all.toFinset.filter fun v => v ∉ wanted

open Classical in
/-- variables that are not constant -/
noncomputable def moving (M : Mdl V K) : Finset V := M.all.toFinset.filter fun v => ¬ M.ConstDep v

/-- the number of unwanted variables plus the number of variables that are not constant -/
noncomputable def size (wanted : List V) (M : Mdl V K) : ℕ := (M.unwanted wanted).card + M.moving.card

/-- variables disappear, constants stay constant -/
structure Shrinks (M M' : Mdl V K) : Prop where
  all : ∀ v ∈ M'.all, v ∈ M.all
  const : ∀ v ∈ M'.all, M.ConstDep v → M'.ConstDep v

theorem Shrinks.refl (M : Mdl V K) : Shrinks M M := ⟨fun _ h => h, fun _ _ h => h⟩

theorem Shrinks.trans {M M' M'' : Mdl V K} (h : Shrinks M M') (h' : Shrinks M' M'') : Shrinks M M'' :=
  ⟨fun v hv => h.all v (h'.all v hv), fun v hv hc => h'.const v hv (h.const v (h'.all v hv) hc)⟩

variable {wanted : List V} {env : Sympy V K}

theorem mem_unwanted {M : Mdl V K} {v : V} : v ∈ M.unwanted wanted ↔ v ∈ M.all ∧ v ∉ wanted := by
  simp [unwanted]

theorem mem_moving {M : Mdl V K} {v : V} : v ∈ M.moving ↔ v ∈ M.all ∧ ¬ M.ConstDep v := by
  simp [moving]

theorem Shrinks.unwanted {M M' : Mdl V K} (h : Shrinks M M') : M'.unwanted wanted ⊆ M.unwanted wanted := fun v hv => by
  rw [mem_unwanted] at hv ⊢
  exact ⟨h.all v hv.1, hv.2⟩

theorem Shrinks.moving {M M' : Mdl V K} (h : Shrinks M M') : M'.moving ⊆ M.moving := fun v hv => by
  rw [mem_moving] at hv ⊢
  exact ⟨h.all v hv.1, fun hc => hv.2 (h.const v hv.1 hc)⟩

theorem Shrinks.size {M M' : Mdl V K} (h : Shrinks M M') : M'.size wanted ≤ M.size wanted :=
  Nat.add_le_add (Finset.card_le_card h.unwanted) (Finset.card_le_card h.moving)

theorem Shrinks.size_gone {M M' : Mdl V K} (h : Shrinks M M') {v : V} (h1 : v ∈ M.all) (h2 : v ∉ wanted)
    (h3 : v ∉ M'.all) : M'.size wanted < M.size wanted := by
  refine Nat.add_lt_add_of_lt_of_le (Finset.card_lt_card ⟨h.unwanted, fun hs => ?_⟩) (Finset.card_le_card h.moving)
  exact h3 (mem_unwanted.1 (hs (mem_unwanted.2 ⟨h1, h2⟩))).1

theorem Shrinks.size_const {M M' : Mdl V K} (h : Shrinks M M') {v : V} (h1 : v ∈ M.all) (h2 : ¬ M.ConstDep v)
    (h3 : M'.ConstDep v) : M'.size wanted < M.size wanted := by
  refine Nat.add_lt_add_of_le_of_lt (Finset.card_le_card h.unwanted) (Finset.card_lt_card ⟨h.moving, fun hs => ?_⟩)
  exact (mem_moving.1 (hs (mem_moving.2 ⟨h1, h2⟩))).2 h3

/-! ### what every step keeps -/

/-- a model that `inference` can go on with -/
structure Going (P : Expr V K → Prop) (wanted : List V) (M : Mdl V K) : Prop where
  wf : M.WF
  solv : ∀ p ∈ M.eqs, P p.2
  want : ∀ w ∈ wanted, w ∈ M.all

variable {P : Expr V K → Prop}

theorem substAll_solv (hP : env.Solves P) {d : List (V × Expr V K)} {v : V} {s : Expr V K} (hd : ∀ p ∈ d, P p.2)
    (hs : P s) : ∀ p ∈ substAll env d v s, P p.2 := by
  intro p hp
  obtain ⟨q, hq, rfl⟩ := mem_substAll.1 hp
  split_ifs
  · exact hP.subst _ _ _ hs (hd q hq)
  · exact hd q hq

theorem constDep_substAll {d : List (V × Expr V K)} {u v : V} {s e : Expr V K} (h : (v, e) ∈ d) (he : e.vars = []) :
    (v, e) ∈ substAll env d u s := by
  refine mem_substAll.2 ⟨(v, e), h, if_neg ?_⟩
  simp [he]

theorem WF.mem_all {M : Mdl V K} (h : M.WF) {v : V} : v ∈ M.all ↔ v ∈ M.free ∨ v ∈ M.dep := by
  rw [h.all.mem_iff, List.mem_append]

theorem WF.has_eq {M : Mdl V K} (h : M.WF) {v : V} (hv : v ∈ M.dep) : ∃ e, (v, e) ∈ M.eqs := by
  obtain ⟨p, hp, rfl⟩ := List.mem_map.1 (h.keys.mem_iff.2 hv)
  exact ⟨p.2, hp⟩

theorem WF.constDep_dep {M : Mdl V K} (h : M.WF) {v : V} (hv : M.ConstDep v) : v ∈ M.dep := by
  obtain ⟨e, he, -⟩ := hv
  exact h.key_dep he

theorem exchange_shrinks {M M' : Mdl V K} (hM : M.WF) {fv dv : V} (h : M.varschange env fv dv = .ok M') :
    Shrinks M M' := by
  obtain ⟨h1, h2, e, inv, he, h3, h4, h5, rfl⟩ := varschange_ok h
  refine ⟨fun v hv => hv, ?_⟩
  rintro v - ⟨c, hc, hc0⟩
  refine ⟨c, ?_, hc0⟩
  dsimp only
  rw [varschange_eqs hM h1]
  refine List.mem_append_left _ (constDep_substAll (List.mem_filter.2 ⟨hc, ?_⟩) hc0)
  simp only [ne_eq, decide_not, Bool.not_eq_true', decide_eq_false_iff_not]
  rintro rfl
  rw [hM.key_unique (lookup_ok he) hc, hc0] at h3
  simp at h3

theorem eliminate_shrinks {M M' : Mdl V K} (hM : M.WF) {v : V} (h : M.eliminate env v = .ok M') : Shrinks M M' := by
  have ha := eliminate_mem h
  refine ⟨fun w hw => ?_, fun w hw => ?_⟩
  · rw [ha.2] at hw
    exact List.mem_of_mem_erase hw
  · rw [ha.2, mem_erase_iff hM] at hw
    rintro ⟨c, hc, hc0⟩
    by_cases hv : v ∈ M.free
    · obtain ⟨h1, rfl⟩ := eliminate_free hv h
      exact ⟨c, hc, hc0⟩
    · obtain ⟨h1, e, he, rfl⟩ := eliminate_dep hv h
      exact ⟨c, constDep_substAll (List.mem_filter.2 ⟨hc, by simpa using hw.1⟩) hc0, hc0⟩

theorem condition_shrinks {M M' : Mdl V K} {v : V} {x : K} (h : M.condition env v x = .ok M') : Shrinks M M' := by
  obtain ⟨h1, rfl⟩ := condition_ok h
  refine ⟨fun w hw => List.mem_of_mem_erase hw, ?_⟩
  rintro w - ⟨c, hc, hc0⟩
  exact ⟨c, constDep_substAll hc hc0, hc0⟩

theorem propagate_shrinks {M : Mdl V K} {v : V} {e : Expr V K} :
    Shrinks M { M with eqs := substAll env M.eqs v e } := by
  refine ⟨fun w hw => hw, ?_⟩
  rintro w - ⟨c, hc, hc0⟩
  exact ⟨c, constDep_substAll hc hc0, hc0⟩

theorem Going.exchange (ho : env.Ok) (hP : env.Solves P) {M M' : Mdl V K} (h : Going P wanted M) {fv dv : V}
    (hs : M.varschange env fv dv = .ok M') : Going P wanted M' := by
  refine ⟨varschange_wf ho h.wf hs, ?_, ?_⟩
  · obtain ⟨h1, h2, e, inv, he, h3, h4, h5, rfl⟩ := varschange_ok hs
    have hmem := lookup_ok he
    obtain ⟨s, hs1, hs2⟩ := hP.unique e dv fv (h.solv _ hmem) (h.wf.not_self hmem) h3
    have hinv : P inv := by
      rw [hs1] at h5
      rw [← List.singleton_inj.1 h5]
      exact hs2
    intro p hp
    dsimp only at hp
    rw [varschange_eqs h.wf h1] at hp
    rcases List.mem_append.1 hp with hp | hp
    · exact substAll_solv hP (fun q hq => h.solv q (List.mem_filter.1 hq).1) hinv p hp
    · rw [List.mem_singleton.1 hp]
      exact hinv
  · obtain ⟨h1, h2, e, inv, he, h3, h4, h5, rfl⟩ := varschange_ok hs
    exact h.want

theorem Going.eliminate (ho : env.Ok) (hP : env.Solves P) {M M' : Mdl V K} (h : Going P wanted M) {v : V}
    (hv : v ∉ wanted) (hs : M.eliminate env v = .ok M') : Going P wanted M' := by
  refine ⟨eliminate_wf ho h.wf hs, ?_, fun w hw => ?_⟩
  · by_cases hv : v ∈ M.free
    · obtain ⟨h1, rfl⟩ := eliminate_free hv hs
      exact h.solv
    · obtain ⟨h1, e, he, rfl⟩ := eliminate_dep hv hs
      exact substAll_solv hP (fun q hq => h.solv q (List.mem_filter.1 hq).1) (h.solv _ (lookup_ok he))
  · rw [(eliminate_mem hs).2, mem_erase_iff h.wf]
    exact ⟨fun e => hv (e ▸ hw), h.want w hw⟩

theorem Going.condition (ho : env.Ok) (hP : env.Solves P) {M M' : Mdl V K} (h : Going P wanted M) {v : V} {x : K}
    (hv : v ∉ wanted) (hs : M.condition env v x = .ok M') : Going P wanted M' := by
  refine ⟨condition_wf ho h.wf hs, ?_, fun w hw => ?_⟩
  · obtain ⟨h1, rfl⟩ := condition_ok hs
    exact substAll_solv hP h.solv (hP.const x)
  · obtain ⟨h1, rfl⟩ := condition_ok hs
    exact (mem_erase_iff h.wf).2 ⟨fun e => hv (e ▸ hw), h.want w hw⟩

theorem Going.propagate (ho : env.Ok) (hP : env.Solves P) {M : Mdl V K} (h : Going P wanted M) {v : V} {e : Expr V K}
    (he : (v, e) ∈ M.eqs) : Going P wanted { M with eqs := substAll env M.eqs v e } :=
  ⟨propagate_wf ho h.wf he, substAll_solv hP h.solv (h.solv _ he), h.want⟩

/-! ### exchanged variables -/

/-- the exchanged variables are wanted and dependent, their equations are about free variables, and no equation is about
them -/
structure Exch (wanted exch : List V) (M : Mdl V K) : Prop where
  want : ∀ x ∈ exch, x ∈ wanted
  dep : ∀ x ∈ exch, x ∈ M.dep
  vars : ∀ p ∈ M.eqs, p.1 ∈ exch → ∀ w ∈ p.2.vars, w ∈ M.free
  none : ∀ p ∈ M.eqs, ∀ w ∈ p.2.vars, w ∉ exch

theorem Exch.nil (wanted : List V) (M : Mdl V K) : Exch wanted [] M :=
  ⟨by simp, by simp, by simp, by simp⟩

/-- after an exchange, as for the variables exchanged before so for the new one -/
theorem Exch.exchange (ho : env.Ok) {M M' : Mdl V K} (hM : M.WF) {exch : List V} (h : Exch wanted exch M) {fv dv : V}
    (hd : dv ∉ exch) (hs : M.varschange env fv dv = .ok M') :
    Exch wanted exch M' ∧ fv ∈ M'.dep ∧ (∀ e, (fv, e) ∈ M'.eqs → ∀ w ∈ e.vars, w ∈ M'.free) ∧
      ∀ p ∈ M'.eqs, fv ∉ p.2.vars := by
  have hM' := varschange_wf ho hM hs
  obtain ⟨h1, h2, e, inv, he, h3, h4, h5, rfl⟩ := varschange_ok hs
  have hmem := lookup_ok he
  have hv := ho.solve_vars e dv fv inv h5 (hM.not_self hmem) h3
  have hne : fv ≠ dv := fun e => hM.not_both h1 (e ▸ h2)
  have hfn : M.free.Nodup := (List.nodup_append'.1 hM.nodup).1
  have hfree : ∀ w ∈ M.free, w ≠ fv → w ∈ M.free.erase fv ++ [dv] := fun w hw hwf =>
    List.mem_append_left _ (hfn.mem_erase_iff.2 ⟨hwf, hw⟩)
  have hinv : ∀ w ∈ inv.vars, w ∈ M.free.erase fv ++ [dv] := by
    intro w hw
    rcases hv w hw with rfl | ⟨h6, h7⟩
    · simp
    · exact hfree w (h4 w h6) h7
  have hfe : fv ∉ exch := fun hx => hM.not_both h1 (h.dep fv hx)
  have hinvx : ∀ w ∈ inv.vars, w ∉ exch ∧ w ≠ fv := by
    intro w hw
    rcases hv w hw with rfl | ⟨h6, h7⟩
    · exact ⟨hd, hne.symm⟩
    · exact ⟨fun hx => hM.not_both (h4 w h6) (h.dep w hx), h7⟩
  have hnew : ∀ p ∈ setKey (substAll env (M.eqs.filter fun p => decide (p.1 ≠ dv)) fv inv) fv inv,
      p = (fv, inv) ∨ ∃ q ∈ M.eqs, q.1 = p.1 ∧ ∀ w ∈ p.2.vars, w ∈ q.2.vars ∧ w ≠ fv ∨ w ∈ inv.vars := by
    intro p hp
    rw [varschange_eqs hM h1] at hp
    rcases List.mem_append.1 hp with hp | hp
    · obtain ⟨q, hq, hqe, hqv⟩ := substAll_vars ho.norm_vars hp
      exact Or.inr ⟨q, (List.mem_filter.1 hq).1, hqe, fun w hw => (hqv w hw).imp id fun h => h.1⟩
    · exact Or.inl (List.mem_singleton.1 hp)
  refine ⟨⟨h.want, fun x hx => ?_, fun p hp hpx w hw => ?_, fun p hp w hw => ?_⟩, ?_, fun c hc w hw => ?_, fun p hp hw => ?_⟩
  · have : x ≠ dv := fun e => hd (e ▸ hx)
    exact (List.mem_erase_of_ne this).2 (List.mem_append_left _ (h.dep x hx))
  · rcases hnew p hp with rfl | ⟨q, hq, hqp, hqv⟩
    · exact absurd hpx hfe
    · rcases hqv w hw with hw | hw
      · exact hfree w (h.vars q hq (hqp ▸ hpx) w hw.1) hw.2
      · exact hinv w hw
  · rcases hnew p hp with rfl | ⟨q, hq, hqp, hqv⟩
    · exact (hinvx w hw).1
    · rcases hqv w hw with hw | hw
      · exact h.none q hq w hw.1
      · exact (hinvx w hw).1
  · exact (List.mem_erase_of_ne hne).2 (by simp)
  · rcases hnew _ hc with hh | ⟨q, hq, hqp, hqv⟩
    · rw [Prod.mk.injEq] at hh
      exact hinv w (hh.2 ▸ hw)
    · have := hM.key_dep hq
      rw [hqp] at this
      exact (hM.not_both h1 this).elim
  · rcases hnew p hp with rfl | ⟨q, hq, hqp, hqv⟩
    · exact (hinvx _ hw).2 rfl
    · rcases hqv _ hw with hw | hw
      · exact hw.2 rfl
      · exact (hinvx _ hw).2 rfl

theorem Exch.add {M : Mdl V K} (hM : M.WF) {exch : List V} (h : Exch wanted exch M) {fv : V} (h0 : fv ∈ wanted)
    (h1 : fv ∈ M.dep) (h2 : ∀ e, (fv, e) ∈ M.eqs → ∀ w ∈ e.vars, w ∈ M.free) (h3 : ∀ p ∈ M.eqs, fv ∉ p.2.vars) :
    Exch wanted (fv :: exch) M := by
  refine ⟨?_, ?_, ?_, ?_⟩
  · intro x hx
    rcases List.mem_cons.1 hx with rfl | hx
    exacts [h0, h.want x hx]
  · intro x hx
    rcases List.mem_cons.1 hx with rfl | hx
    exacts [h1, h.dep x hx]
  · rintro ⟨x, e⟩ hp hx
    rcases List.mem_cons.1 hx with hx | hx
    · obtain rfl : x = fv := hx
      exact h2 e hp
    · exact h.vars _ hp hx
  · intro p hp w hw hx
    rcases List.mem_cons.1 hx with rfl | hx
    exacts [h3 p hp hw, h.none p hp w hw hx]

theorem Exch.eliminate_free {M M' : Mdl V K} (hM : M.WF) {exch : List V} (h : Exch wanted exch M) {v : V}
    (hv : v ∈ M.free) (hs : M.eliminate env v = .ok M') : Exch wanted exch M' := by
  obtain ⟨h1, rfl⟩ := Mdl.eliminate_free hv hs
  have hfn : M.free.Nodup := (List.nodup_append'.1 hM.nodup).1
  exact ⟨h.want, h.dep, fun p hp hx w hw => hfn.mem_erase_iff.2 ⟨fun e => h1 p hp (e ▸ hw), h.vars p hp hx w hw⟩, h.none⟩

theorem Exch.condition (ho : env.Ok) {M M' : Mdl V K} (hM : M.WF) {exch : List V} (h : Exch wanted exch M) {v : V} {x : K}
    (hs : M.condition env v x = .ok M') : Exch wanted exch M' := by
  obtain ⟨h1, rfl⟩ := condition_ok hs
  have hfn : M.free.Nodup := (List.nodup_append'.1 hM.nodup).1
  refine ⟨h.want, h.dep, fun p hp hx w hw => ?_, fun p hp w hw => ?_⟩ <;>
    obtain ⟨q, hq, hqp, hqv⟩ := substAll_vars ho.norm_vars hp <;>
    rcases hqv w hw with hw | hw
  · exact hfn.mem_erase_iff.2 ⟨hw.2, h.vars q hq (hqp ▸ hx) w hw.1⟩
  · simp [Expr.vars] at hw
  · exact h.none q hq w hw.1
  · simp [Expr.vars] at hw

/-- eliminating a dependent variable that nothing is made of -/
theorem Exch.eliminate_leaf (ho : env.Ok) {M M' : Mdl V K} (hM : M.WF) {exch : List V} (h : Exch wanted exch M) {v : V}
    (hv : v ∈ M.dep) (hw : v ∉ wanted) (hl : ∀ p ∈ M.eqs, v ∉ p.2.vars) (hs : M.eliminate env v = .ok M') :
    Exch wanted exch M' := by
  obtain ⟨h1, e, he, rfl⟩ := eliminate_dep (fun hf => hM.not_both hf hv) hs
  refine ⟨h.want, fun x hx => ?_, fun p hp hx w hw => ?_, fun p hp w hw => ?_⟩
  · have hne : x ≠ v := by
      rintro rfl
      exact hw (h.want _ hx)
    exact (List.mem_erase_of_ne hne).2 (h.dep x hx)
  · obtain ⟨q, hq, hqp, hqv⟩ := substAll_vars ho.norm_vars hp
    have hq' := (List.mem_filter.1 hq).1
    rcases hqv w hw with hw | hw
    · exact h.vars q hq' (hqp ▸ hx) w hw.1
    · exact absurd hw.2 (hl q hq')
  · obtain ⟨q, hq, hqp, hqv⟩ := substAll_vars ho.norm_vars hp
    have hq' := (List.mem_filter.1 hq).1
    rcases hqv w hw with hw | hw
    · exact h.none q hq' w hw.1
    · exact absurd hw.2 (hl q hq')

/-! ### loops that cannot fail -/

theorem mapM_isOk {α β : Type} {f : α → Except MErr β} : ∀ {l : List α}, (∀ a ∈ l, ∃ b, f a = .ok b) →
    ∃ r, l.mapM f = .ok r ∧ ∀ a ∈ l, ∃ b ∈ r, f a = .ok b
  | [], _ => ⟨[], rfl, by simp⟩
  | a :: l, h => by
    obtain ⟨b, hb⟩ := h a (by simp)
    obtain ⟨r, hr, hr'⟩ := mapM_isOk (l := l) fun x hx => h x (by simp [hx])
    refine ⟨b :: r, ?_, ?_⟩
    · rw [List.mapM_cons, hb]
      show (l.mapM f >>= fun r => pure (b :: r)) = _
      rw [hr]
      rfl
    · intro x hx
      rcases List.mem_cons.1 hx with rfl | hx
      · exact ⟨b, by simp, hb⟩
      · obtain ⟨c, hc, hxc⟩ := hr' x hx
        exact ⟨c, by simp [hc], hxc⟩

theorem filterMapM_isOk {α β : Type} {f : α → Except MErr (Option β)} : ∀ {l : List α}, (∀ a ∈ l, ∃ b, f a = .ok b) →
    ∃ r, l.filterMapM f = .ok r ∧ ∀ a ∈ l, ∀ b, f a = .ok (some b) → b ∈ r
  | [], _ => ⟨[], by rw [List.filterMapM_nil]; rfl, by simp⟩
  | a :: l, h => by
    obtain ⟨o, hb⟩ := h a (by simp)
    obtain ⟨r, hr, hr'⟩ := filterMapM_isOk (l := l) fun x hx => h x (by simp [hx])
    rw [List.filterMapM_cons, hb]
    cases o with
    | none =>
      refine ⟨r, hr, ?_⟩
      intro x hx b hxb
      rcases List.mem_cons.1 hx with rfl | hx
      · rw [hb] at hxb
        cases hxb
      · exact hr' x hx b hxb
    | some c =>
      refine ⟨c :: r, ?_, ?_⟩
      · show (l.filterMapM f >>= fun r => pure (c :: r)) = _
        rw [hr]
        rfl
      · intro x hx b hxb
        rcases List.mem_cons.1 hx with rfl | hx
        · rw [hb] at hxb
          cases hxb
          simp
        · exact List.mem_cons_of_mem _ (hr' x hx b hxb)

theorem parents_isOk {M : Mdl V K} (hM : M.WF) {v : V} {e : Expr V K} (he : (v, e) ∈ M.eqs) :
    M.parents v = .ok e.vars.dedup := by
  obtain ⟨e', h⟩ := lookup_isOk (List.mem_map.2 ⟨_, he, rfl⟩)
  rw [parents, h, hM.key_unique he (lookup_ok h)]
  rfl

theorem depAndAnc_isOk {M : Mdl V K} (hM : M.WF) (exch : List V) : ∃ anc, M.depAndAnc exch = .ok anc ∧
    ∀ d ∈ M.dep, d ∉ exch → d ∈ anc ∧ ∀ e, (d, e) ∈ M.eqs → ∀ w ∈ e.vars, w ∈ anc := by
  obtain ⟨r, hr, hr'⟩ := mapM_isOk (f := M.parents) (l := M.dep.filter fun v => decide (v ∉ exch)) fun d hd => by
    obtain ⟨e, he⟩ := hM.has_eq (List.mem_filter.1 hd).1
    exact ⟨_, parents_isOk hM he⟩
  refine ⟨_, by rw [depAndAnc, hr]; rfl, fun d hd hx => ?_⟩
  have hm : d ∈ M.dep.filter fun v => decide (v ∉ exch) := List.mem_filter.2 ⟨hd, by simpa using hx⟩
  refine ⟨List.mem_append_left _ hm, fun e he w hw => List.mem_append_right _ ?_⟩
  obtain ⟨b, hb, hdb⟩ := hr' d hm
  rw [parents_isOk hM he] at hdb
  cases hdb
  exact List.mem_flatten.2 ⟨_, hb, List.mem_dedup.2 hw⟩

theorem constants_isOk {M : Mdl V K} (hM : M.WF) : ∃ cs, M.constants = .ok cs ∧ ∀ d, M.ConstDep d → d ∈ cs := by
  obtain ⟨r, hr, hr'⟩ := filterMapM_isOk (l := M.dep)
    (f := fun v => (M.parents v).map fun ps => if ps.isEmpty then some v else none) fun d hd => by
    obtain ⟨e, he⟩ := hM.has_eq hd
    exact ⟨_, by rw [parents_isOk hM he]; rfl⟩
  refine ⟨r, hr, ?_⟩
  rintro d ⟨e, he, h0⟩
  refine hr' d (hM.key_dep he) d ?_
  rw [parents_isOk hM he, h0]
  rfl

/-- what `pairs` contains -/
theorem pairs_isOk {M : Mdl V K} (hM : M.WF) (exch : List V) : ∃ ps, M.pairs wanted exch = .ok ps ∧
    (∀ p ∈ ps, p.2.2 ∉ exch ∧ (p.1.1 = 0 ↔ p.2.1 ∉ wanted) ∧ 0 ≤ p.1.1 ∧ ∃ e, (p.2.2, e) ∈ M.eqs ∧ p.2.1 ∈ e.vars ∧
      ∀ w ∈ e.vars, w ∈ M.free) ∧
    ∀ d e, (d, e) ∈ M.eqs → d ∉ exch → (∀ w ∈ e.vars, w ∈ M.free) → ∀ w ∈ e.vars, ∃ p ∈ ps, p.2 = (w, d) := by
  have hall : ∀ d ∈ M.dep, ∃ b, ((M.parents d).map fun ps =>
      if d ∉ exch ∧ ∀ w ∈ ps, w ∈ M.free then some (d, ps) else none) = .ok b := fun d hd => by
    obtain ⟨e, he⟩ := hM.has_eq hd
    exact ⟨_, by rw [parents_isOk hM he]; rfl⟩
  obtain ⟨r, hr, hr'⟩ := filterMapM_isOk hall
  refine ⟨_, by rw [pairs, hr]; rfl, fun p hp => ?_, fun d e he hx hf w hw => ?_⟩
  · obtain ⟨⟨d, vs⟩, hd, hp⟩ := List.mem_flatMap.1 hp
    obtain ⟨fv, hfv, rfl⟩ := List.mem_map.1 hp
    obtain ⟨d', hd', h1⟩ := filterMapM_ok hr _ hd
    obtain ⟨e, he⟩ := hM.has_eq hd'
    rw [parents_isOk hM he] at h1
    simp only [Except.map, Except.ok.injEq] at h1
    split_ifs at h1 with h2
    simp only [Option.some.injEq, Prod.mk.injEq] at h1
    obtain ⟨rfl, rfl⟩ := h1
    dsimp only at hfv ⊢
    refine ⟨h2.1, ?_, ?_, e, he, List.mem_dedup.1 hfv, fun w hw => h2.2 w (List.mem_dedup.2 hw)⟩
    · split_ifs with hw <;> simp [hw]
    · split_ifs <;> simp
  · have := hr' d (hM.key_dep he) (d, e.vars.dedup) (by
      rw [parents_isOk hM he]
      simp only [Except.map, Except.ok.injEq]
      rw [if_pos ⟨hx, fun w hw => hf w (List.mem_dedup.1 hw)⟩])
    exact ⟨_, List.mem_flatMap.2 ⟨_, this, List.mem_map.2 ⟨w, List.mem_dedup.2 hw, rfl⟩⟩, rfl⟩

theorem firstPair_mem {before} : ∀ {ps : List ((ℤ × ℤ) × V × V)} {p}, firstPair before ps = some p → p ∈ ps := by
  intro ps p h
  cases ps with
  | nil => cases h
  | cons q qs =>
    simp only [firstPair, Option.some.injEq] at h
    subst h
    induction qs generalizing q with
    | nil => simp
    | cons r rs ih =>
      rw [List.foldl_cons]
      rcases List.mem_cons.1 (ih (q := if before r q then r else q)) with h | h
      · rw [h]
        split_ifs <;> simp
      · simp [h]

theorem foldl_key {before : ((ℤ × ℤ) × V × V) → ((ℤ × ℤ) × V × V) → Bool} (hb : SortsByKey before) :
    ∀ (ps : List ((ℤ × ℤ) × V × V)) (p : (ℤ × ℤ) × V × V),
    (ps.foldl (fun m q => if before q m then q else m) p).1.1 ≤ p.1.1 ∧
      ∀ q ∈ ps, (ps.foldl (fun m q => if before q m then q else m) p).1.1 ≤ q.1.1
  | [], p => by simp
  | r :: rs, p => by
    rw [List.foldl_cons]
    obtain ⟨h1, h2⟩ := foldl_key hb rs (if before r p then r else p)
    have h3 : (if before r p then r else p).1.1 ≤ p.1.1 ∧ (if before r p then r else p).1.1 ≤ r.1.1 := by
      split_ifs with h
      · refine ⟨?_, le_refl _⟩
        by_contra hn
        have := (hb p r (not_le.1 hn)).2
        rw [h] at this
        cases this
      · refine ⟨le_refl _, ?_⟩
        by_contra hn
        exact h (hb r p (not_le.1 hn)).1
    refine ⟨h1.trans h3.1, fun q hq => ?_⟩
    rcases List.mem_cons.1 hq with rfl | hq
    · exact h1.trans h3.2
    · exact h2 q hq

theorem firstPair_key {before} (hb : SortsByKey before) {ps : List ((ℤ × ℤ) × V × V)} {p}
    (h : firstPair before ps = some p) : ∀ q ∈ ps, p.1.1 ≤ q.1.1 := by
  cases ps with
  | nil => cases h
  | cons q qs =>
    simp only [firstPair, Option.some.injEq] at h
    subst h
    intro r hr
    rcases List.mem_cons.1 hr with rfl | hr
    · exact (foldl_key hb qs _).1
    · exact (foldl_key hb qs _).2 r hr

theorem firstPair_none {before} {ps : List ((ℤ × ℤ) × V × V)} (h : firstPair before ps = none) : ps = [] := by
  cases ps with
  | nil => rfl
  | cons q qs => cases h

end Mdl
end Pacal.DepVars
