import Verif.Symbolic.Lem

/-! What the binary operations return. -/

namespace Pacal.Symbolic
variable {norm : Sym → Sym}

/-- what is to be shown of a result -/
structure Good (norm : Sym → Sym) (op : Op2) (a b v : Val) : Prop where
  value : ∀ σ, v.Sat σ → a.Sat σ → b.Sat σ → op.Dom (a.value σ) (b.value σ) →
    v.value σ = op.fn (a.value σ) (b.value σ)
  proper : v.Proper
  leaves : ∀ la lb, a.Leaves la → b.Leaves lb → (∃ r, v = .num r) ∨ v.Leaves (la ++ lb)

theorem good_shift (hn : Sound norm) {op : Op2} {i : ℕ} {x : Node} {a b v : Val} {s c : ℝ}
    (hx : x.Proper) (h : (mkShift norm i x s c).map Val.rv = .ok v)
    (hv : c ≠ 0 → ∀ σ, op.Dom (a.value σ) (b.value σ) → x.symname.eval σ * c + s = op.fn (a.value σ) (b.value σ))
    (hl : ∀ la lb, a.Leaves la → b.Leaves lb → Leaves x (la ++ lb)) : Good norm op a b v := by
  obtain ⟨n, h9, rfl⟩ := map_rv h
  obtain ⟨hc, rfl⟩ := mkShift_ok h9
  exact ⟨fun σ h1 _ _ h4 => (one_value hn h1).trans (hv hc σ h4), proper_plain (i := i) hx,
    fun la lb h1 h2 => .inr (.one rfl (hl la lb h1 h2))⟩

theorem good_two (hn : Sound norm) {op : Op2} {f : Sym → Sym → Sym} {i : ℕ} {x y : Node} (hx : x.Proper) (hy : y.Proper)
    (hv : ∀ σ, (f x.symname y.symname).eval σ = op.fn (x.symname.eval σ) (y.symname.eval σ)) :
    Good norm op (.rv x) (.rv y) (.rv (mkTwo norm f i x y)) :=
  ⟨fun σ h1 _ _ _ => (two_value hn h1).trans (hv σ), ⟨hx, hy⟩, fun _ _ h1 h2 => .inr (.two rfl h1 h2)⟩

theorem run_good (hn : Sound norm) {op : Op2} {i : ℕ} {a b v : Val} (ha : a.Proper) (hb : b.Proper)
    (h : op.run norm i a b = .ok v) : Good norm op a b v := by
  cases op with
  | add =>
    match a, b, ha, hb, h with
    | .rv x, .rv y, ha, hb, h => cases h; exact good_two hn ha hb fun σ => rfl
    | .rv x, .num d, ha, hb, h =>
      exact good_shift hn ha h (fun _ σ _ => by simp [Op2.fn, Val.value]) fun la lb h1 h2 => by
        cases h2; rw [List.append_nil]; exact h1
    | .num d, .rv y, ha, hb, h =>
      exact good_shift hn hb h (fun _ σ _ => by simp [Op2.fn, Val.value, add_comm]) fun la lb h1 h2 => by
        cases h1; exact h2
    | .num c, .num d, ha, hb, h => cases h; exact ⟨fun _ _ _ _ _ => rfl, trivial, fun _ _ _ _ => .inl ⟨_, rfl⟩⟩
  | sub =>
    match a, b, ha, hb, h with
    | .rv x, .rv y, ha, hb, h => cases h; exact good_two hn ha hb fun σ => rfl
    | .rv x, .num d, ha, hb, h =>
      exact good_shift hn ha h (fun _ σ _ => by simp [Op2.fn, Val.value, sub_eq_add_neg]) fun la lb h1 h2 => by
        cases h2; rw [List.append_nil]; exact h1
    | .num d, .rv y, ha, hb, h =>
      exact good_shift hn hb h (fun _ σ _ => by simp only [Op2.fn, Val.value]; ring) fun la lb h1 h2 => by
        cases h1; exact h2
    | .num c, .num d, ha, hb, h => cases h; exact ⟨fun _ _ _ _ _ => rfl, trivial, fun _ _ _ _ => .inl ⟨_, rfl⟩⟩
  | mul =>
    match a, b, ha, hb, h with
    | .rv x, .rv y, ha, hb, h => cases h; exact good_two hn ha hb fun σ => rfl
    | .rv x, .num d, ha, hb, h =>
      unfold Op2.run at h; simp only at h
      by_cases hd : d = 0
      · rw [if_pos hd] at h; cases h
        exact ⟨fun _ _ _ _ _ => by simp [Val.value, Op2.fn, hd], trivial, fun _ _ _ _ => .inl ⟨_, rfl⟩⟩
      · rw [if_neg hd] at h
        exact good_shift hn ha h (fun _ σ _ => by simp [Op2.fn, Val.value]) fun la lb h1 h2 => by
          cases h2; rw [List.append_nil]; exact h1
    | .num d, .rv y, ha, hb, h =>
      unfold Op2.run at h; simp only at h
      by_cases hd : d = 0
      · rw [if_pos hd] at h; cases h
        exact ⟨fun _ _ _ _ _ => by simp [Val.value, Op2.fn, hd], trivial, fun _ _ _ _ => .inl ⟨_, rfl⟩⟩
      · rw [if_neg hd] at h
        exact good_shift hn hb h (fun _ σ _ => by simp [Op2.fn, Val.value, mul_comm]) fun la lb h1 h2 => by
          cases h1; exact h2
    | .num c, .num d, ha, hb, h => cases h; exact ⟨fun _ _ _ _ _ => rfl, trivial, fun _ _ _ _ => .inl ⟨_, rfl⟩⟩
  | div =>
    match a, b, ha, hb, h with
    | .rv x, .rv y, ha, hb, h => cases h; exact good_two hn ha hb fun σ => rfl
    | .rv x, .num d, ha, hb, h =>
      unfold Op2.run at h; simp only at h
      by_cases hd : d = 0
      · rw [if_pos hd] at h; cases h
      · rw [if_neg hd] at h
        exact good_shift hn ha h (fun _ σ _ => by
          simp only [Op2.fn, Val.value]; norm_num; rw [div_eq_mul_inv]) fun la lb h1 h2 => by
          cases h2; rw [List.append_nil]; exact h1
    | .num d, .rv y, ha, hb, h =>
      unfold Op2.run at h; simp only at h
      by_cases hd : d = 0
      · rw [if_pos hd] at h; cases h
        exact ⟨fun _ _ _ _ _ => by simp [Val.value, Op2.fn, hd], trivial, fun _ _ _ _ => .inl ⟨_, rfl⟩⟩
      · rw [if_neg hd] at h
        obtain ⟨n, h9, rfl⟩ := map_rv h
        obtain ⟨hc, rfl⟩ := mkShift_ok h9
        refine ⟨fun σ h1 _ _ h4 => ?_, proper_plain (i := i + 1) (proper_plain (i := i) hb), fun la lb h1 h2 => ?_⟩
        · have e1 := one_value hn h1
          have e2 := one_value hn h1.2
          refine e1.trans ?_
          simp only [Sym.eval]
          rw [show (mkInv norm i y).symname.eval σ = _ from e2]
          simp only [Sym.eval, Op2.fn, Val.value]
          ring
        · cases h1; exact .inr (.one rfl (.one rfl h2))
    | .num c, .num d, ha, hb, h =>
      unfold Op2.run at h; simp only at h
      split_ifs at h
      cases h; exact ⟨fun _ _ _ _ _ => rfl, trivial, fun _ _ _ _ => .inl ⟨_, rfl⟩⟩
  | min =>
    match a, b, ha, hb, h with
    | .rv x, .rv y, ha, hb, h => cases h; exact good_two hn ha hb fun σ => rfl
    | .rv x, .num d, ha, hb, h => cases h
    | .num d, .rv y, ha, hb, h => cases h
    | .num c, .num d, ha, hb, h =>
      cases h
      refine ⟨fun _ _ _ _ _ => ?_, trivial, fun _ _ _ _ => .inl ⟨_, rfl⟩⟩
      simp only [Val.value, Op2.fn]
      split_ifs with h
      · exact (min_eq_right h.le).symm
      · exact (min_eq_left (not_lt.1 h)).symm
  | max =>
    match a, b, ha, hb, h with
    | .rv x, .rv y, ha, hb, h => cases h; exact good_two hn ha hb fun σ => rfl
    | .rv x, .num d, ha, hb, h => cases h
    | .num d, .rv y, ha, hb, h => cases h
    | .num c, .num d, ha, hb, h =>
      cases h
      refine ⟨fun _ _ _ _ _ => ?_, trivial, fun _ _ _ _ => .inl ⟨_, rfl⟩⟩
      simp only [Val.value, Op2.fn]
      split_ifs with h
      · exact (max_eq_right h.le).symm
      · exact (max_eq_left (not_lt.1 h)).symm
  | pow =>
    match a, b, ha, hb, h with
    | .rv x, .rv y, ha, hb, h =>
      unfold Op2.run at h; simp only at h
      cases hl : mkLog norm i x with
      | error e => rw [hl] at h; cases h
      | ok l =>
        rw [hl] at h
        cases h
        obtain ⟨hx, rfl⟩ := mkLog_ok hl
        refine ⟨fun σ h1 h2 h3 h4 => ?_, proper_exp (i := i + 2) hn ⟨proper_plain (i := i) ha, hb⟩, fun la lb h1 h2 => ?_⟩
        · have e1 := one_value hn h1
          have e2 := two_value hn h1.2
          have e3 := one_value hn h1.2.2.1
          have hp := exp_pos_value hx ha h2
          refine e1.trans ?_
          simp only [Sym.eval]
          rw [e2]
          simp only [Sym.eval]
          rw [e3]
          simp only [Sym.eval, Op2.fn, Val.value]
          rw [Real.rpow_def_of_pos hp]
        · exact .inr (.one rfl (.two rfl (.one rfl h1) h2))
    | .rv x, .num d, ha, hb, h =>
      unfold Op2.run at h; simp only at h
      have hlf : ∀ {la lb : List ℕ}, (Val.num d).Leaves lb → la ++ lb = la := by
        intro la lb h; cases h; exact List.append_nil _
      by_cases h0 : d = 0
      · rw [if_pos h0] at h; cases h
        exact ⟨fun _ _ _ _ _ => by simp [Val.value, Op2.fn, h0], trivial, fun _ _ _ _ => .inl ⟨_, rfl⟩⟩
      rw [if_neg h0] at h
      by_cases h1 : d = 1
      · rw [if_pos h1] at h; cases h
        exact ⟨fun _ _ _ _ _ => by simp [Val.value, Op2.fn, h1], ha, fun la lb h h' => .inr (by rw [hlf h']; exact h)⟩
      rw [if_neg h1] at h
      by_cases h2 : d = -1
      · rw [if_pos h2] at h; cases h
        refine ⟨fun σ h _ _ _ => ?_, proper_plain (i := i) ha, fun la lb h h' => .inr (by rw [hlf h']; exact .one rfl h)⟩
        refine (one_value hn h).trans ?_
        simp only [Sym.eval, Op2.fn, Val.value, h2]
        rw [Real.rpow_neg_one, one_div]
      rw [if_neg h2] at h
      by_cases h3 : d = 2
      · rw [if_pos h3] at h; cases h
        refine ⟨fun σ h _ _ _ => ?_, proper_plain (i := i) ha, fun la lb h h' => .inr (by rw [hlf h']; exact .one rfl h)⟩
        refine (one_value hn h).trans ?_
        simp only [Sym.eval, Op2.fn, Val.value, h3]
      rw [if_neg h3] at h
      cases hl : mkLog norm i x with
      | error e => rw [hl] at h; cases h
      | ok l =>
        rw [hl] at h
        obtain ⟨hx, rfl⟩ := mkLog_ok hl
        cases hs : mkShift norm (i + 1) (.one i false (norm (.log x.symname)) x) 0 d with
        | error e => simp [hs, Bind.bind, Except.bind] at h
        | ok s =>
          simp only [hs, Bind.bind, Except.bind] at h
          cases h
          obtain ⟨hc, rfl⟩ := mkShift_ok hs
          refine ⟨fun σ h1 h2 h3 h4 => ?_, proper_exp (i := i + 2) hn (proper_plain (i := i + 1) (proper_plain (i := i) ha)), fun la lb h1 h2 => ?_⟩
          · have e1 := one_value hn h1
            have e2 := one_value hn h1.2
            have e3 := one_value hn h1.2.2
            have hp := exp_pos_value hx ha h2
            refine e1.trans ?_
            simp only [Sym.eval]
            rw [e2]
            simp only [Sym.eval]
            rw [e3]
            simp only [Sym.eval, Op2.fn, Val.value]
            rw [Real.rpow_def_of_pos hp, add_zero]
          · exact .inr (by rw [hlf h2]; exact .one rfl (.one rfl (.one rfl h1)))
    | .num x, .rv y, ha, hb, h =>
      unfold Op2.run at h; simp only at h
      by_cases h0 : x = 0
      · rw [if_pos h0] at h; cases h
        refine ⟨fun σ _ _ _ hd => ?_, trivial, fun _ _ _ _ => .inl ⟨_, rfl⟩⟩
        simp only [Val.value, Op2.fn, h0] at hd ⊢
        rcases hd with hd | hd | hd
        · exact absurd hd (lt_irrefl _)
        · exact (Real.zero_rpow hd.2.ne').symm
        · exact absurd rfl hd.1
      rw [if_neg h0] at h
      by_cases h1 : x = 1
      · rw [if_pos h1] at h; cases h
        exact ⟨fun _ _ _ _ _ => by simp [Val.value, Op2.fn, h1], trivial, fun _ _ _ _ => .inl ⟨_, rfl⟩⟩
      rw [if_neg h1] at h
      by_cases h2 : x < 0
      · rw [if_pos h2] at h; cases h
      rw [if_neg h2] at h
      have hx : 0 < x := lt_of_le_of_ne (not_lt.1 h2) (Ne.symm h0)
      cases hs : mkShift norm i y 0 (Real.log x) with
      | error e => simp [hs, Bind.bind, Except.bind] at h
      | ok s =>
        simp only [hs, Bind.bind, Except.bind] at h
        cases h
        obtain ⟨hc, rfl⟩ := mkShift_ok hs
        refine ⟨fun σ h1 h2 h3 h4 => ?_, proper_exp (i := i + 1) hn (proper_plain (i := i) hb), fun la lb h1 h2 => ?_⟩
        · have e1 := one_value hn h1
          have e2 := one_value hn h1.2
          refine e1.trans ?_
          simp only [Sym.eval]
          rw [e2]
          simp only [Sym.eval, Op2.fn, Val.value]
          rw [Real.rpow_def_of_pos hx, add_zero, mul_comm]
        · cases h1; exact .inr (.one rfl (.one rfl h2))
    | .num c, .num d, ha, hb, h => cases h

end Pacal.Symbolic
