import Verif.Graph.Lemmas
import Mathlib.Data.List.Nodup

/-! Lemmas about joint sampling. -/

namespace Pacal
namespace Graph
variable {V : Type}

/-- the node is sampled with `rand_raw` -/
def IsRaw (h : Heap V) (j : ℕ) : Prop := ∃ n, h[j]? = some n ∧ n.kind = .raw

/-- the assignment realised by a log of draws: the value of a variable is that of its (first) draw -/
def envOf (src : ℕ → ℕ → V) (log : List ℕ) (j : ℕ) : V := src (log.idxOf j) j

theorem envOf_append (src : ℕ → ℕ → V) {log : List ℕ} (t : List ℕ) {j : ℕ} (hj : j ∈ log) :
    envOf src (log ++ t) j = envOf src log j := by
  unfold envOf
  rw [List.idxOf_append_of_mem hj]

theorem forall₂_imp_mem {α β : Type*} {R S : α → β → Prop} {as : List α} {bs : List β}
    (hf : List.Forall₂ R as bs) (h : ∀ a ∈ as, ∀ b, R a b → S a b) : List.Forall₂ S as bs := by
  induction hf with
  | nil => exact .nil
  | cons h1 _ ih => exact .cons (h _ (by simp) _ h1) (ih (fun a ha => h a (by simp [ha])))

theorem ev_congr {h : Heap V} (hwf : WF h) {e₁ e₂ : ℕ → V} : ∀ (i : ℕ) (v : V), Ev h e₁ i v →
    (∀ j, Occurs h i j → IsRaw h j → e₁ j = e₂ j) → Ev h e₂ i v := by
  intro i
  induction i using Nat.strong_induction_on with
  | _ i ih =>
    intro v hev he
    cases hev with
    | raw e hk => rw [he i .refl ⟨_, e, hk⟩]; exact .raw e hk
    | @op _ n f vs e hk hf =>
      exact .op e hk (forall₂_imp_mem hf fun a ha b hb => ih a ((hwf i n e).2 a ha) b hb
        (fun j hj hr => he j ((occurs_op e hk).2 (.inr ⟨a, ha, hj⟩)) hr))

/-- what the cache and the log of draws satisfy at every moment of a joint sampling run -/
structure Inv (h : Heap V) (src : ℕ → ℕ → V) (c : Cache V) (log : List ℕ) : Prop where
  nodup : log.Nodup
  drawn : ∀ j ∈ log, IsRaw h j ∧ c j = some (envOf src log j)
  ev : ∀ j v, c j = some v → Ev h (envOf src log) j v ∧ ∀ l, Occurs h j l → IsRaw h l → l ∈ log

theorem inv_ev_mono {h : Heap V} (hwf : WF h) {src : ℕ → ℕ → V} {c : Cache V} {log : List ℕ} (hi : Inv h src c log)
    (t : List ℕ) {j : ℕ} {v : V} (hj : c j = some v) : Ev h (envOf src (log ++ t)) j v := by
  obtain ⟨h1, h2⟩ := hi.ev j v hj
  exact ev_congr hwf _ _ h1 (fun l hl hr => (envOf_append src t (h2 l hl hr)).symm)

/-- result of sampling node `i` from cache `c` and log `log` -/
def Post (h : Heap V) (src : ℕ → ℕ → V) (c : Cache V) (log : List ℕ) (i : ℕ) (v : V) (c' : Cache V)
    (log' : List ℕ) : Prop :=
  Inv h src c' log' ∧ c' i = some v ∧ (∀ j u, c j = some u → c' j = some u) ∧
    (∀ j ∈ log', j ∈ log ∨ Occurs h i j)

theorem randArgs_spec {h : Heap V} {src : ℕ → ℕ → V} (r : ℕ → Smp V → Except PyErr (V × Smp V)) :
    ∀ (as : List ℕ) (c : Cache V) (log : List ℕ),
    (∀ a ∈ as, ∀ c log, Inv h src c log →
      ∃ v c' log', r a ⟨some c, log⟩ = .ok (v, ⟨some c', log'⟩) ∧ Post h src c log a v c' log') →
    Inv h src c log →
    ∃ vs c' log', randArgs r as ⟨some c, log⟩ = .ok (vs, ⟨some c', log'⟩) ∧ Inv h src c' log' ∧
      List.Forall₂ (fun a v => c' a = some v) as vs ∧ (∀ j u, c j = some u → c' j = some u) ∧
      (∀ j ∈ log', j ∈ log ∨ ∃ a ∈ as, Occurs h a j) := by
  intro as
  induction as with
  | nil => intro c log _ hi; exact ⟨[], c, log, rfl, hi, .nil, fun _ _ h => h, fun _ h => .inl h⟩
  | cons a as ih =>
    intro c log hr hi
    obtain ⟨v, c₁, log₁, h1, hi₁, h2, h3, h5⟩ := hr a (by simp) c log hi
    obtain ⟨vs, c₂, log₂, g1, hi₂, g2, g3, g5⟩ := ih c₁ log₁ (fun b hb => hr b (by simp [hb])) hi₁
    refine ⟨v :: vs, c₂, log₂, ?_, hi₂, .cons (g3 _ _ h2) g2, fun j u hj => g3 _ _ (h3 _ _ hj), ?_⟩
    · simp only [randArgs, h1]
      show (do let (vs, s) ← randArgs r as ⟨some c₁, log₁⟩; Except.ok (v :: vs, s)) = _
      rw [g1]; rfl
    · intro j hj
      rcases g5 j hj with h | ⟨b, hb, h⟩
      · rcases h5 j h with h | h
        · exact .inl h
        · exact .inr ⟨a, by simp, h⟩
      · exact .inr ⟨b, by simp [hb], h⟩

theorem forall₂_ev {h : Heap V} {src : ℕ → ℕ → V} {c : Cache V} {log : List ℕ} (hi : Inv h src c log)
    {as : List ℕ} {vs : List V} (hf : List.Forall₂ (fun a v => c a = some v) as vs) :
    List.Forall₂ (Ev h (envOf src log)) as vs := by
  induction hf with
  | nil => exact .nil
  | cons h1 _ ih => exact .cons (hi.ev _ _ h1).1 ih

theorem forall₂_mem {c : Cache V} {as : List ℕ} {vs : List V}
    (hf : List.Forall₂ (fun a v => c a = some v) as vs) : ∀ a ∈ as, ∃ v, c a = some v := by
  induction hf with
  | nil => simp
  | cons h1 _ ih =>
    intro b hb
    rcases List.mem_cons.1 hb with rfl | hb
    · exact ⟨_, h1⟩
    · exact ih b hb

theorem rand_some {h : Heap V} (src : ℕ → ℕ → V) (hwf : WF h) : ∀ k i c log, i < k → i < h.length →
    (∀ j n, Occurs h i j → h[j]? = some n → n.indep = false) → Inv h src c log →
    ∃ v c' log', rand h src k i ⟨some c, log⟩ = .ok (v, ⟨some c', log'⟩) ∧
      Post h src c log i v c' log' := by
  intro k
  induction k with
  | zero => intro i c log hi; omega
  | succ k ih =>
    intro i c log hi hl hind hinv
    obtain ⟨n, e⟩ := exists_node hl
    have hin : n.indep = false := hind i n .refl e
    rcases hc : c i with _ | v
    · rcases hk : n.kind with _ | f
      · -- raw draw
        have hnot : i ∉ log := by
          intro hm; have := (hinv.drawn i hm).2; rw [hc] at this; cases this
        have hself : envOf src (log ++ [i]) i = src log.length i := by
          unfold envOf
          rw [List.idxOf_append_of_notMem hnot]; simp
        have hmono : ∀ j u, c j = some u → Function.update c i (some (src log.length i)) j = some u := by
          intro j u hj
          rw [Function.update_of_ne (by rintro rfl; rw [hc] at hj; cases hj)]; exact hj
        refine ⟨src log.length i, Function.update c i (some (src log.length i)), log ++ [i], ?_, ?_,
          by simp, hmono, ?_⟩
        · simp only [rand, e, hin, hk, Option.getD_some, hc, draw]
          rfl
        · refine ⟨?_, ?_, ?_⟩
          · rw [List.nodup_append]
            exact ⟨hinv.nodup, by simp, by
              rintro a ha b hb rfl; rw [List.mem_singleton] at hb; exact hnot (hb ▸ ha)⟩
          · intro j hj
            rcases List.mem_append.1 hj with hj | hj
            · rw [envOf_append src _ hj]
              exact ⟨(hinv.drawn j hj).1, hmono _ _ (hinv.drawn j hj).2⟩
            · rw [List.mem_singleton] at hj; subst hj
              rw [hself]; exact ⟨⟨n, e, hk⟩, by simp⟩
          · intro j u hj
            by_cases hji : j = i
            · subst hji
              rw [Function.update_self] at hj
              cases hj
              refine ⟨?_, ?_⟩
              · rw [← hself]; exact .raw e hk
              · intro l hl hr
                rw [(occurs_raw e hk).1 hl]; simp
            · rw [Function.update_of_ne hji] at hj
              exact ⟨inv_ev_mono hwf hinv [i] hj, fun l hl hr => by
                simp [(hinv.ev j u hj).2 l hl hr]⟩
        · intro j hj
          rcases List.mem_append.1 hj with hj | hj
          · exact .inl hj
          · rw [List.mem_singleton] at hj; subst hj; exact .inr .refl
      · -- operation
        obtain ⟨vs, c₁, log₁, h1, hi₁, h2, h3, h5⟩ := randArgs_spec (h := h) (src := src) (rand h src k)
          n.args c log (fun a ha c log hi' => ih a c log (by have := (hwf i n e).2 a ha; omega)
            (by have := (hwf i n e).2 a ha; omega)
            (fun j m hj => hind j m ((occurs_op e hk).2 (.inr ⟨a, ha, hj⟩))) hi') hinv
        have hev : Ev h (envOf src log₁) i (f vs) := .op e hk (forall₂_ev hi₁ h2)
        have hocc : ∀ l, Occurs h i l → IsRaw h l → l ∈ log₁ := by
          intro l hl hr
          rcases (occurs_op e hk).1 hl with rfl | ⟨a, ha, hal⟩
          · obtain ⟨m, em, hm⟩ := hr
            rw [e] at em; cases em; rw [hk] at hm; cases hm
          · obtain ⟨u, hu⟩ := forall₂_mem h2 a ha
            exact (hi₁.ev a u hu).2 l hal hr
        have hni : ∀ j ∈ log₁, j ≠ i := by
          rintro j hj rfl
          obtain ⟨m, em, hm⟩ := (hi₁.drawn j hj).1
          rw [e] at em; cases em; rw [hk] at hm; cases hm
        refine ⟨f vs, Function.update c₁ i (some (f vs)), log₁, ?_, ⟨hi₁.nodup, ?_, ?_⟩, by simp, ?_, ?_⟩
        · simp only [rand, e, hin, hk, Option.getD_some, hc]
          rw [h1]; rfl
        · intro j hj
          rw [Function.update_of_ne (hni j hj)]
          exact hi₁.drawn j hj
        · intro j u hj
          by_cases hji : j = i
          · subst hji
            rw [Function.update_self] at hj
            cases hj
            exact ⟨hev, hocc⟩
          · rw [Function.update_of_ne hji] at hj
            exact hi₁.ev j u hj
        · intro j u hj
          rw [Function.update_of_ne (by rintro rfl; rw [hc] at hj; cases hj)]
          exact h3 j u hj
        · intro j hj
          rcases h5 j hj with h' | ⟨a, ha, h'⟩
          · exact .inl h'
          · exact .inr ((occurs_op e hk).2 (.inr ⟨a, ha, h'⟩))
    · exact ⟨v, c, log, by simp [rand, e, hin, hc], hinv, hc, fun _ _ h => h, fun j hj => .inl hj⟩

theorem inv_empty (h : Heap V) (src : ℕ → ℕ → V) : Inv h src (fun _ => none) [] :=
  ⟨List.nodup_nil, fun _ h => absurd h (by simp), fun _ _ h => by cases h⟩

/-- a call without a cache computes the same as a call with a fresh one -/
theorem rand_none {h : Heap V} (src : ℕ → ℕ → V) {k i : ℕ} {n : Node V} (e : h[i]? = some n)
    (hin : n.indep = false) (log : List ℕ) {v : V} {s' : Smp V}
    (hr : rand h src k i ⟨some fun _ => none, log⟩ = .ok (v, s')) :
    rand h src k i ⟨none, log⟩ = .ok (v, ⟨none, s'.log⟩) := by
  cases k with
  | zero => simp [rand] at hr
  | succ k =>
    simp only [rand, e, hin, Option.getD_some, Option.getD_none] at hr ⊢
    rcases hk : n.kind with _ | f
    · rw [hk] at hr
      simp only [draw] at hr ⊢
      cases hr; rfl
    · rw [hk] at hr
      simp only at hr ⊢
      rcases ha : randArgs (rand h src k) n.args ⟨some fun _ => none, log⟩ with _ | ⟨vs, s⟩
      · rw [ha] at hr; cases hr
      · rw [ha] at hr
        cases hr; rfl

end Graph
end Pacal
