import Verif.DepVars.EndMono
import Mathlib.Data.Fintype.Pi
import Mathlib.Data.Fintype.Option
import Mathlib.Data.Fintype.Basic

/-!
A solver for exclusive ors, an example of `Sympy.Ok` and `Sympy.Solves` where all equations can be solved.
-/

namespace Pacal.DepVars

/-- exclusive or -/
def xorF (a b : Bool) : Option Bool := some (a ^^ b)

/-- variables in exactly one of two lists -/
def symm (l₁ l₂ : List ℕ) : List ℕ := l₁.filter (fun v => decide (v ∉ l₂)) ++ l₂.filter (fun v => decide (v ∉ l₁))

/-- an exclusive or of a constant and of different variables -/
def build (c : Bool) : List ℕ → Expr ℕ Bool
  | [] => .const c
  | v :: l => .bin xorF (.var v) (build c l)

/-- the constant and the variables of an expression -/
def lin : Expr ℕ Bool → Option (Bool × List ℕ)
  | .var v => some (false, [v])
  | .const c => some (c, [])
  | .un _ _ => none
  | .bin f a b =>
    if f = xorF then
      match lin a, lin b with
      | some p, some q => some (p.1 ^^ q.1, symm p.2 q.2)
      | _, _ => none
    else none

/-- collects variables, and solves for one of them -/
def xorEnv : Sympy ℕ Bool where
  norm e := match lin e with
    | some p => build p.1 p.2
    | none => e
  solve e y x := match lin e with
    | some p => if x ∈ p.2 ∧ y ∉ p.2 then [build p.1 (y :: p.2.erase x)] else []
    | none => []
  real _ := true

/-- exclusive or of the values -/
def parity (σ : ℕ → Bool) (l : List ℕ) : Bool := l.foldr (fun v b => σ v ^^ b) false

theorem parity_perm {σ : ℕ → Bool} {l l' : List ℕ} (h : l.Perm l') : parity σ l = parity σ l' := by
  induction h with
  | nil => rfl
  | cons x _ ih => simp only [parity, List.foldr_cons] at ih ⊢; rw [ih]
  | swap x y l =>
    simp only [parity, List.foldr_cons]
    rw [← Bool.xor_assoc, ← Bool.xor_assoc, Bool.xor_comm (σ y)]
  | trans _ _ h1 h2 => exact h1.trans h2

theorem parity_append (σ : ℕ → Bool) (l l' : List ℕ) : parity σ (l ++ l') = (parity σ l ^^ parity σ l') := by
  induction l with
  | nil => simp [parity]
  | cons v l ih =>
    simp only [parity, List.foldr_cons, List.cons_append] at ih ⊢
    rw [ih, Bool.xor_assoc]

theorem symm_nodup {l₁ l₂ : List ℕ} (h₁ : l₁.Nodup) (h₂ : l₂.Nodup) : (symm l₁ l₂).Nodup := by
  rw [symm, List.nodup_append']
  refine ⟨h₁.filter _, h₂.filter _, fun v hv hv' => ?_⟩
  have a := (List.mem_filter.1 hv)
  have b := (List.mem_filter.1 hv')
  simp only [decide_not, Bool.not_eq_true', decide_eq_false_iff_not] at a b
  exact b.2 a.1

theorem parity_symm (σ : ℕ → Bool) {l₁ l₂ : List ℕ} (h₁ : l₁.Nodup) (h₂ : l₂.Nodup) :
    parity σ (symm l₁ l₂) = (parity σ l₁ ^^ parity σ l₂) := by
  have e₁ := parity_perm (σ := σ) (List.filter_append_perm (fun v => decide (v ∈ l₂)) l₁)
  have e₂ := parity_perm (σ := σ) (List.filter_append_perm (fun v => decide (v ∈ l₁)) l₂)
  have e₃ : parity σ (l₁.filter fun v => decide (v ∈ l₂)) = parity σ (l₂.filter fun v => decide (v ∈ l₁)) := by
    refine parity_perm ((List.perm_ext_iff_of_nodup (h₁.filter _) (h₂.filter _)).2 fun v => ?_)
    simp [List.mem_filter, and_comm]
  rw [parity_append] at e₁ e₂
  simp only [symm, decide_not]
  rw [parity_append, ← e₁, ← e₂, e₃]
  generalize parity σ (l₂.filter fun v => decide (v ∈ l₁)) = a
  generalize parity σ (l₁.filter fun v => !decide (v ∈ l₂)) = b
  generalize parity σ (l₂.filter fun v => !decide (v ∈ l₁)) = c
  cases a <;> cases b <;> cases c <;> rfl

theorem build_eval (c : Bool) (σ : ℕ → Bool) : ∀ l, (build c l).eval σ = some (c ^^ parity σ l)
  | [] => by simp [build, Expr.eval, parity]
  | v :: l => by
    rw [build, Expr.eval, build_eval c σ l]
    simp only [Expr.eval, Option.bind_some, xorF, parity, List.foldr_cons]
    rw [← Bool.xor_assoc, ← Bool.xor_assoc, Bool.xor_comm c]

theorem build_vars (c : Bool) : ∀ l, (build c l).vars = l
  | [] => rfl
  | v :: l => by rw [build, Expr.vars, build_vars c l]; rfl

theorem lin_spec : ∀ {e : Expr ℕ Bool} {p : Bool × List ℕ}, lin e = some p →
    p.2.Nodup ∧ (∀ v ∈ p.2, v ∈ e.vars) ∧ ∀ σ, e.eval σ = some (p.1 ^^ parity σ p.2)
  | .var v, p, h => by
    cases h
    exact ⟨by simp, by simp [Expr.vars], fun σ => by simp [Expr.eval, parity]⟩
  | .const c, p, h => by
    cases h
    exact ⟨by simp, by simp, fun σ => by simp [Expr.eval, parity]⟩
  | .un f e, p, h => by cases h
  | .bin f a b, p, h => by
    rw [lin] at h
    split_ifs at h with hf
    subst hf
    cases ha : lin a with
    | none => rw [ha] at h; cases h
    | some q =>
      cases hb : lin b with
      | none => rw [ha, hb] at h; cases h
      | some r =>
        rw [ha, hb] at h
        cases h
        obtain ⟨a1, a2, a3⟩ := lin_spec ha
        obtain ⟨b1, b2, b3⟩ := lin_spec hb
        refine ⟨symm_nodup a1 b1, fun v hv => ?_, fun σ => ?_⟩
        · rcases List.mem_append.1 hv with hv | hv
          · exact List.mem_append_left _ (a2 v (List.mem_filter.1 hv).1)
          · exact List.mem_append_right _ (b2 v (List.mem_filter.1 hv).1)
        · rw [Expr.eval, a3, b3]
          simp only [Option.bind_some, xorF]
          rw [parity_symm σ a1 b1]
          generalize parity σ q.2 = x
          generalize parity σ r.2 = y
          generalize q.1 = z
          generalize r.1 = w
          revert x y z w
          decide

theorem lin_build (c : Bool) : ∀ {l : List ℕ}, l.Nodup → lin (build c l) = some (c, l)
  | [], _ => rfl
  | v :: l, h => by
    rw [List.nodup_cons] at h
    rw [build, lin, if_pos rfl, lin_build c h.2]
    simp only [lin, symm, Bool.false_xor, Option.some.injEq, Prod.mk.injEq, true_and]
    rw [List.filter_cons_of_pos (by simpa using h.1), List.filter_nil, List.filter_eq_self.2 ?_]
    · rfl
    · intro w hw
      simp only [List.mem_singleton, decide_not, Bool.not_eq_true', decide_eq_false_iff_not]
      exact fun e => h.1 (e ▸ hw)

theorem lin_subs {v : ℕ} {s : Expr ℕ Bool} (hs : (lin s).isSome) : ∀ {e : Expr ℕ Bool}, (lin e).isSome →
    (lin (Expr.subs v s e)).isSome
  | .var w, _ => by
    rw [Expr.subs]
    split_ifs
    exacts [hs, rfl]
  | .const c, _ => rfl
  | .un f e, h => by cases h
  | .bin f a b, h => by
    rw [lin] at h
    split_ifs at h with hf
    cases ha : lin a with
    | none => rw [ha] at h; cases h
    | some q =>
      cases hb : lin b with
      | none => rw [ha, hb] at h; cases h
      | some r =>
        obtain ⟨x, hx⟩ := Option.isSome_iff_exists.1 (lin_subs (v := v) hs (e := a) (by rw [ha]; rfl))
        obtain ⟨y, hy⟩ := Option.isSome_iff_exists.1 (lin_subs (v := v) hs (e := b) (by rw [hb]; rfl))
        rw [Expr.subs, lin, if_pos hf, hx, hy]
        rfl
    · cases h

theorem xor_solutions (e : Expr ℕ Bool) (y x : ℕ) : Mdl.solutions xorEnv e y x = xorEnv.solve e y x :=
  List.filter_eq_self.2 fun a _ => by simp [xorEnv]

theorem xor_solved {e : Expr ℕ Bool} {y x : ℕ} {s : Expr ℕ Bool} (h : Mdl.solutions xorEnv e y x = [s]) :
    ∃ p, lin e = some p ∧ x ∈ p.2 ∧ y ∉ p.2 ∧ s = build p.1 (y :: p.2.erase x) := by
  rw [xor_solutions] at h
  simp only [xorEnv] at h
  cases hl : lin e with
  | none => rw [hl] at h; cases h
  | some p =>
    rw [hl] at h
    dsimp only at h
    split_ifs at h with hx
    exact ⟨p, rfl, hx.1, hx.2, (List.singleton_inj.1 h).symm⟩

theorem xorEnv_ok : xorEnv.Ok where
  norm_eval e σ := by
    simp only [xorEnv]
    cases hl : lin e with
    | none => rfl
    | some p =>
      dsimp only
      rw [build_eval, (lin_spec hl).2.2]
  norm_vars e v h := by
    simp only [xorEnv] at h
    cases hl : lin e with
    | none => rw [hl] at h; exact h
    | some p =>
      rw [hl] at h
      dsimp only at h
      rw [build_vars] at h
      exact (lin_spec hl).2.1 v h
  solve_eval e y x s h _ _ σ := by
    obtain ⟨p, hp, hx, -, rfl⟩ := xor_solved h
    have hpar : parity σ p.2 = (σ x ^^ parity σ (p.2.erase x)) := parity_perm (List.perm_cons_erase hx)
    rw [(lin_spec hp).2.2, build_eval, hpar]
    have hc : parity σ (y :: p.2.erase x) = (σ y ^^ parity σ (p.2.erase x)) := rfl
    rw [hc]
    generalize parity σ (p.2.erase x) = a
    generalize σ x = b
    generalize σ y = c
    generalize p.1 = d
    revert a b c d
    decide
  solve_vars e y x s h _ _ w hw := by
    obtain ⟨p, hp, hx, -, rfl⟩ := xor_solved h
    rw [build_vars] at hw
    rcases List.mem_cons.1 hw with rfl | hw
    · exact Or.inl rfl
    · have := (lin_spec hp).1.mem_erase_iff.1 hw
      exact Or.inr ⟨(lin_spec hp).2.1 w this.2, this.1⟩

/-- exclusive ors of different variables -/
def IsXor (e : Expr ℕ Bool) : Prop := ∃ c l, l.Nodup ∧ e = build c l

theorem xorEnv_solves : xorEnv.Solves IsXor where
  const c := ⟨c, [], List.nodup_nil, rfl⟩
  subst v s e hs he := by
    obtain ⟨c, l, hl, rfl⟩ := hs
    obtain ⟨d, m, hm, rfl⟩ := he
    obtain ⟨p, hp⟩ := Option.isSome_iff_exists.1 (lin_subs (v := v) (s := build c l) (by rw [lin_build c hl]; rfl)
      (e := build d m) (by rw [lin_build d hm]; rfl))
    refine ⟨p.1, p.2, (lin_spec hp).1, ?_⟩
    simp only [xorEnv, hp]
  unique e y x he hy hx := by
    obtain ⟨c, l, hl, rfl⟩ := he
    rw [build_vars] at hx hy
    refine ⟨build c (y :: l.erase x), ?_, c, y :: l.erase x, ?_, rfl⟩
    · rw [xor_solutions]
      simp only [xorEnv, lin_build c hl]
      rw [if_pos ⟨hx, hy⟩]
    · exact List.nodup_cons.2 ⟨fun h => hy (List.mem_of_mem_erase h), hl.erase x⟩

theorem xorEnv_total : xorEnv.TotalSolver := by
  intro e y x s h _ σ
  obtain ⟨p, -, -, -, rfl⟩ := xor_solved h
  rw [build_eval]
  rfl

end Pacal.DepVars
