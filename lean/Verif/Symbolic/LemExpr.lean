import Verif.Symbolic.SpecExpr
import Verif.Symbolic.Props

/-! Lemmas about whole expressions. -/

namespace Pacal.Symbolic
variable {norm : Sym → Sym}

theorem Expr.eval_congr {e : Expr} {i : ℕ} {σ τ : ℕ → ℝ} (he : e.Below i) (h : ∀ j < i, τ j = σ j) : e.eval τ = e.eval σ := by
  induction e with
  | var j => exact h j he
  | num r => rfl
  | un op e ih => simp only [Expr.eval, ih he]
  | bin op e f ih jh => simp only [Expr.eval, ih he.1, jh he.2]

theorem Expr.defined_congr {e : Expr} {i : ℕ} {σ τ : ℕ → ℝ} (he : e.Below i) (h : ∀ j < i, τ j = σ j) (hd : e.Defined σ) :
    e.Defined τ := by
  induction e with
  | var j => trivial
  | num r => trivial
  | un op e ih => exact ⟨ih he hd.1, by rw [Expr.eval_congr (e := e) he h]; exact hd.2⟩
  | bin op e f ih jh =>
    exact ⟨ih he.1 hd.1, jh he.2 hd.2.1, by
      rw [Expr.eval_congr (e := e) he.1 h, Expr.eval_congr (e := f) he.2 h]; exact hd.2.2⟩

theorem Expr.Below.mono {e : Expr} {i k : ℕ} (hk : i ≤ k) (h : e.Below i) : e.Below k := by
  induction e with
  | var j => exact lt_of_lt_of_le h hk
  | num r => trivial
  | un op e ih => exact ih h
  | bin op e f ih jh => exact ⟨ih h.1, jh h.2⟩

theorem Val.Below.mono {v : Val} {i k : ℕ} (hk : i ≤ k) (h : v.Below i) : v.Below k := by
  cases v with
  | num r => trivial
  | rv n => exact Node.Below.mono hk h

theorem val_congr {v : Val} {i : ℕ} {σ τ : ℕ → ℝ} (hv : v.Below i) (h : ∀ j < i, τ j = σ j) (hs : v.Sat σ) :
    v.Sat τ ∧ v.value τ = v.value σ := by
  cases v with
  | num r => exact ⟨trivial, rfl⟩
  | rv n => exact ⟨sat_congr hv h hs, Symbolic.eval_congr (symname_below hv) h⟩

theorem build_ok (hn : Sound norm) (hf : Fresh norm) {e : Expr} {i k : ℕ} {v : Val} (he : e.Below i)
    (h : e.build norm i = .ok (v, k)) :
    i ≤ k ∧ v.Below k ∧ v.Proper ∧
      ∀ σ, ∃ τ, (∀ j < i, τ j = σ j) ∧ v.Sat τ ∧ (e.Defined σ → v.value τ = e.eval σ) := by
  induction e generalizing i k v with
  | var j => cases h; exact ⟨le_rfl, he, trivial, fun σ => ⟨σ, fun _ _ => rfl, trivial, fun _ => rfl⟩⟩
  | num r => cases h; exact ⟨le_rfl, trivial, trivial, fun σ => ⟨σ, fun _ _ => rfl, trivial, fun _ => rfl⟩⟩
  | un op e ih =>
    cases hb : e.build norm i with
    | error x => simp [Expr.build, hb, Bind.bind, Except.bind] at h
    | ok p =>
      obtain ⟨a, l⟩ := p
      obtain ⟨h1, h2, h3, h4⟩ := ih he hb
      cases a with
      | num r =>
        simp only [Expr.build, hb, Bind.bind, Except.bind] at h
        cases hr : op.onNumber r with
        | error x => simp [hr] at h
        | ok o =>
          cases o with
          | none => simp [hr] at h
          | some y =>
            simp only [hr] at h
            cases h
            refine ⟨h1, trivial, trivial, fun σ => ?_⟩
            obtain ⟨τ, t1, t2, t3⟩ := h4 σ
            refine ⟨τ, t1, trivial, fun hd => ?_⟩
            have hv : r = e.eval σ := t3 hd.1
            have hns : op ≠ .sigmoid := by rintro rfl; cases hr
            have hh := (C104_numbers op hns r).1 (by rw [hv]; exact hd.2)
            rw [hr] at hh
            cases hh
            show op.fn r = op.fn (e.eval σ)
            rw [hv]
      | rv n =>
        simp only [Expr.build, hb, Bind.bind, Except.bind] at h
        cases hr : op.run norm l n with
        | error x => simp [hr] at h
        | ok w =>
          simp only [hr] at h
          cases h
          have hu := C104_unary_partial norm hn op l n w hr
          refine ⟨by omega, ?_, hu.2.2 h3, fun σ => ?_⟩
          · obtain ⟨τ, t1, t2, t3⟩ := h4 (fun _ => 0)
            exact (run1_solve hf h2 hr t2).1
          · obtain ⟨τ, t1, t2, t3⟩ := h4 σ
            obtain ⟨_, τ', u1, u2⟩ := run1_solve hf h2 hr t2
            have hc := val_congr (v := .rv n) h2 u1 t2
            refine ⟨τ', fun j hj => (u1 j (by omega)).trans (t1 j hj), u2, fun hd => ?_⟩
            have hval : n.symname.eval τ' = e.eval σ := hc.2.trans (t3 hd.1)
            have := hu.1 τ' hc.1 u2 (by rw [hval]; exact hd.2)
            show w.symname.eval τ' = op.fn (e.eval σ)
            rw [this, hval]
  | bin op e f ih jh =>
    cases hb : e.build norm i with
    | error x => simp [Expr.build, hb, Bind.bind, Except.bind] at h
    | ok p =>
      obtain ⟨a, l⟩ := p
      cases hc : f.build norm l with
      | error x => simp [Expr.build, hb, hc, Bind.bind, Except.bind] at h
      | ok q =>
        obtain ⟨b, m⟩ := q
        cases hr : op.run norm m a b with
        | error x => simp [Expr.build, hb, hc, hr, Bind.bind, Except.bind] at h
        | ok w =>
          simp only [Expr.build, hb, hc, hr, Bind.bind, Except.bind] at h
          cases h
          obtain ⟨h1, h2, h3, h4⟩ := ih he.1 hb
          have hfl : f.Below l := Expr.Below.mono h1 he.2
          obtain ⟨g1, g2, g3, g4⟩ := jh hfl hc
          have hu := C104_binary_partial norm hn op m a b v h3 g3 hr
          have h2m : a.Below m := Val.Below.mono g1 h2
          have key : ∀ σ, ∃ τ, (∀ j < i, τ j = σ j) ∧ a.Sat τ ∧ b.Sat τ ∧
              (e.Defined σ → a.value τ = e.eval σ) ∧ (f.Defined σ → b.value τ = f.eval σ) := by
            intro σ
            obtain ⟨τ, t1, t2, t3⟩ := h4 σ
            obtain ⟨τ', u1, u2, u3⟩ := g4 τ
            have hca := val_congr h2 u1 t2
            refine ⟨τ', fun j hj => (u1 j (by omega)).trans (t1 j hj), hca.1, u2, fun hd => hca.2.trans (t3 hd), fun hd => ?_⟩
            rw [u3 (Expr.defined_congr (e := f) he.2 t1 hd), Expr.eval_congr (e := f) he.2 t1]
          refine ⟨by omega, ?_, hu.2.2, fun σ => ?_⟩
          · obtain ⟨τ, t1, t2, t3, _⟩ := key (fun _ => 0)
            exact (run_solve hf h2m g2 hr t2 t3).1
          · obtain ⟨τ, t1, t2, t3, t4, t5⟩ := key σ
            obtain ⟨_, τ', u1, u2⟩ := run_solve hf h2m g2 hr t2 t3
            have ca := val_congr h2m u1 t2
            have cb := val_congr g2 u1 t3
            refine ⟨τ', fun j hj => (u1 j (by omega)).trans (t1 j hj), u2, fun hd => ?_⟩
            have ea : a.value τ' = e.eval σ := ca.2.trans (t4 hd.1)
            have eb : b.value τ' = f.eval σ := cb.2.trans (t5 hd.2.1)
            have := hu.1 τ' ca.1 cb.1 u2 (by rw [ea, eb]; exact hd.2.2)
            rw [this, ea, eb]
            rfl

theorem build_leaves (hn : Sound norm) (hf : Fresh norm) {e : Expr} {i k : ℕ} {v : Val} (he : e.Below i) (hp : e.Plain)
    (h : e.build norm i = .ok (v, k)) : ∃ l, v.Leaves l ∧ l.Sublist e.vars := by
  induction e generalizing i k v with
  | var j => cases h; exact ⟨[j], .stop rfl, List.Sublist.refl _⟩
  | num r => cases h; exact ⟨[], rfl, List.Sublist.refl _⟩
  | un op e ih =>
    cases hb : e.build norm i with
    | error x => simp [Expr.build, hb, Bind.bind, Except.bind] at h
    | ok p =>
      obtain ⟨a, l⟩ := p
      obtain ⟨la, h1, h2⟩ := ih he hp.2.2 hb
      cases a with
      | num r =>
        simp only [Expr.build, hb, Bind.bind, Except.bind] at h
        cases hr : op.onNumber r with
        | error x => simp [hr] at h
        | ok o =>
          cases o with
          | none => simp [hr] at h
          | some y =>
            simp only [hr] at h
            cases h
            exact ⟨[], rfl, List.nil_sublist _⟩
      | rv n =>
        simp only [Expr.build, hb, Bind.bind, Except.bind] at h
        cases hr : op.run norm l n with
        | error x => simp [hr] at h
        | ok w =>
          simp only [hr] at h
          cases h
          exact ⟨la, (C104_unary_partial norm hn op l n w hr).2.1 hp.1 hp.2.1 la h1, h2⟩
  | bin op e f ih jh =>
    cases hb : e.build norm i with
    | error x => simp [Expr.build, hb, Bind.bind, Except.bind] at h
    | ok p =>
      obtain ⟨a, l⟩ := p
      cases hc : f.build norm l with
      | error x => simp [Expr.build, hb, hc, Bind.bind, Except.bind] at h
      | ok q =>
        obtain ⟨b, m⟩ := q
        cases hr : op.run norm m a b with
        | error x => simp [Expr.build, hb, hc, hr, Bind.bind, Except.bind] at h
        | ok w =>
          simp only [Expr.build, hb, hc, hr, Bind.bind, Except.bind] at h
          cases h
          obtain ⟨h1, -, h3, -⟩ := build_ok hn hf he.1 hb
          have hfl : f.Below l := Expr.Below.mono h1 he.2
          obtain ⟨-, -, g3, -⟩ := build_ok hn hf hfl hc
          obtain ⟨la, a1, a2⟩ := ih he.1 hp.1 hb
          obtain ⟨lb, b1, b2⟩ := jh hfl hp.2 hc
          rcases (C104_binary_partial norm hn op m a b v h3 g3 hr).2.1 la lb a1 b1 with ⟨r, rfl⟩ | hl
          · exact ⟨[], rfl, List.nil_sublist _⟩
          · exact ⟨la ++ lb, hl, a2.append b2⟩

end Pacal.Symbolic
