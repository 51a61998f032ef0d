import Verif.Symbolic.Lem

/-! The equations of new variables can be solved. -/

namespace Pacal.Symbolic
variable {norm : Sym → Sym} {σ τ : ℕ → ℝ} {i : ℕ}

theorem eval_congr {e : Sym} (he : e.Below i) (h : ∀ j < i, τ j = σ j) : e.eval τ = e.eval σ := by
  induction e with
  | sym j => exact h j he
  | num c => rfl
  | add a b ha hb | sub a b ha hb | mul a b ha hb | div a b ha hb | min a b ha hb | max a b ha hb =>
    simp only [Sym.eval, ha he.1, hb he.2]
  | exp a ha | log a ha | atan a ha | tanh a ha | sign a ha | pow a c ha => simp only [Sym.eval, ha he]

theorem symname_below {n : Node} (h : n.Below i) : n.symname.Below i := by
  unfold Node.symname
  cases n with
  | leaf j => exact h
  | one j b s p => split_ifs; exacts [h.2.1, h.1]
  | two j s p q => split_ifs; exacts [h.2.1, h.1]
  | nested j s p => split_ifs; exacts [h.2.1, h.1]
  | bare j s p => split_ifs; exacts [h.2.1, h.1]

theorem sat_congr {n : Node} (hn : n.Below i) (h : ∀ j < i, τ j = σ j) (hs : n.Sat σ) : n.Sat τ := by
  induction n with
  | leaf j => trivial
  | one j b s p ih =>
    refine ⟨?_, ih hn.2.2 hs.2⟩
    have h1 : (Node.one j b s p).Eqn σ := hs.1
    unfold Node.Eqn at h1 ⊢
    rw [eval_congr (symname_below hn) h, h1]
    exact (eval_congr hn.2.1 h).symm
  | two j s p q ih iq =>
    refine ⟨?_, ih hn.2.2.1 hs.2.1, iq hn.2.2.2 hs.2.2⟩
    have h1 : (Node.two j s p q).Eqn σ := hs.1
    unfold Node.Eqn at h1 ⊢
    rw [eval_congr (symname_below hn) h, h1]
    exact (eval_congr hn.2.1 h).symm
  | nested j s p ih =>
    refine ⟨?_, ih hn.2.2 hs.2⟩
    have h1 : (Node.nested j s p).Eqn σ := hs.1
    unfold Node.Eqn at h1 ⊢
    rw [eval_congr (symname_below hn) h, h1]
    exact (eval_congr hn.2.1 h).symm
  | bare j s p ih =>
    refine ⟨?_, ih hn.2.2 hs.2⟩
    have h1 : (Node.bare j s p).Eqn σ := hs.1
    unfold Node.Eqn at h1 ⊢
    rw [eval_congr (symname_below hn) h, h1]
    exact (eval_congr hn.2.1 h).symm

theorem Sym.Below.mono {e : Sym} {k : ℕ} (hk : i ≤ k) (h : e.Below i) : e.Below k := by
  induction e with
  | sym j => exact lt_of_lt_of_le h hk
  | num c => trivial
  | add a b ha hb | sub a b ha hb | mul a b ha hb | div a b ha hb | min a b ha hb | max a b ha hb =>
    exact ⟨ha h.1, hb h.2⟩
  | exp a ha | log a ha | atan a ha | tanh a ha | sign a ha | pow a c ha => exact ha h

theorem Node.Below.mono {n : Node} {k : ℕ} (hk : i ≤ k) (h : n.Below i) : n.Below k := by
  induction n with
  | leaf j => exact lt_of_lt_of_le h hk
  | one j b s p ih => exact ⟨h.1.trans_le hk, h.2.1.mono hk, ih h.2.2⟩
  | two j s p q ih iq => exact ⟨h.1.trans_le hk, h.2.1.mono hk, ih h.2.2.1, iq h.2.2.2⟩
  | nested j s p ih => exact ⟨h.1.trans_le hk, h.2.1.mono hk, ih h.2.2⟩
  | bare j s p ih => exact ⟨h.1.trans_le hk, h.2.1.mono hk, ih h.2.2⟩

/-- values of the first variables as given, and the equations of the operands and of the new variable -/
def Ext (i : ℕ) (σ : ℕ → ℝ) (k : ℕ) (n : Node) (ns : List Node) : Prop :=
  n.Below k ∧ ∃ τ, (∀ j < i, τ j = σ j) ∧ n.Sat τ ∧ ∀ m ∈ ns, m.Sat τ

/-- one step: a new variable whose expression is in older ones -/
theorem step {k : ℕ} {n : Node} {s : Sym} (hs : s.Below k) (hsym : n.sym = s) (hid : n.id = k) (τ : ℕ → ℝ) :
    n.Eqn (Function.update τ k (s.eval τ)) := by
  unfold Node.Eqn Node.symname
  rw [hsym, hid]
  split_ifs
  · rfl
  · rw [eval_congr (τ := Function.update τ k (s.eval τ)) (σ := τ) hs
      fun j hj => Function.update_of_ne hj.ne _ _]
    simp [Sym.eval]

theorem update_below {k : ℕ} {r : ℝ} (τ : ℕ → ℝ) : ∀ j < k, Function.update τ k r j = τ j :=
  fun _ hj => Function.update_of_ne hj.ne _ _

theorem ext_one (hf : Fresh norm) {k : ℕ} {b : Bool} {e : Sym} {d : Node} {ns : List Node} (hik : i ≤ k)
    (he : e.Below k) (hns : ∀ m ∈ ns, m.Below k) (h : Ext i σ k d ns) :
    Ext i σ (k + 1) (.one k b (norm e) d) ns := by
  obtain ⟨hd, τ, h1, h2, h3⟩ := h
  refine ⟨⟨Nat.lt_succ_self k, (hf e k he).mono k.le_succ, hd.mono k.le_succ⟩,
    Function.update τ k ((norm e).eval τ), fun j hj => ?_, ⟨step (hf e k he) rfl rfl τ, ?_⟩, fun m hm => ?_⟩
  · rw [update_below τ j (hj.trans_le hik), h1 j hj]
  · exact sat_congr hd (update_below τ) h2
  · exact sat_congr (hns m hm) (update_below τ) (h3 m hm)

theorem ext_two (hf : Fresh norm) {k : ℕ} {f : Sym → Sym → Sym} {d c : Node} {ns : List Node} (hik : i ≤ k)
    (he : (f d.symname c.symname).Below k) (hc : c ∈ ns) (hns : ∀ m ∈ ns, m.Below k) (h : Ext i σ k d ns) :
    Ext i σ (k + 1) (mkTwo norm f k d c) ns := by
  obtain ⟨hd, τ, h1, h2, h3⟩ := h
  have hb := hf _ k he
  refine ⟨⟨Nat.lt_succ_self k, hb.mono k.le_succ, hd.mono k.le_succ, (hns c hc).mono k.le_succ⟩,
    Function.update τ k ((norm (f d.symname c.symname)).eval τ), fun j hj => ?_, ⟨step hb rfl rfl τ, ?_, ?_⟩,
    fun m hm => ?_⟩
  · rw [update_below τ j (hj.trans_le hik), h1 j hj]
  · exact sat_congr hd (update_below τ) h2
  · exact sat_congr (hns c hc) (update_below τ) (h3 c hc)
  · exact sat_congr (hns m hm) (update_below τ) (h3 m hm)

/-- the result is made of the variables below `i + 3`, and its equations can be solved -/
def Res (i : ℕ) (σ : ℕ → ℝ) (v : Val) : Prop := v.Below (i + 3) ∧ ∃ τ, (∀ j < i, τ j = σ j) ∧ v.Sat τ

/-- the identities from `i` on are fresh for the operands -/
theorem run_solve (hf : Fresh norm) {op : Op2} {a b v : Val} (ha : a.Below i) (hb : b.Below i)
    (h : op.run norm i a b = .ok v) (h1 : a.Sat σ) (h2 : b.Sat σ) : Res i σ v := by
  have num : ∀ r, Res i σ (.num r) := fun r => ⟨trivial, σ, fun _ _ => rfl, trivial⟩
  have fin : ∀ {k : ℕ} {n : Node} {ns : List Node}, Ext i σ k n ns → k ≤ i + 3 → Res i σ (.rv n) :=
    fun h hk => ⟨h.1.mono hk, h.2.choose, h.2.choose_spec.1, h.2.choose_spec.2.1⟩
  have base : ∀ {x y : Node}, x.Below i → x.Sat σ → y.Sat σ → Ext i σ i x [y] := fun hx hs hy =>
    ⟨hx, σ, fun _ _ => rfl, hs, fun m hm => by rw [List.mem_singleton.1 hm]; exact hy⟩
  have base0 : ∀ {x : Node}, x.Below i → x.Sat σ → Ext i σ i x [] := fun hx hs =>
    ⟨hx, σ, fun _ _ => rfl, hs, fun m hm => (by cases hm)⟩
  have nil : ∀ k, ∀ m ∈ ([] : List Node), m.Below k := fun _ m hm => (by cases hm)
  have two : ∀ {f : Sym → Sym → Sym} {x y : Node}, (∀ a b, a.Below i → b.Below i → (f a b).Below i) → x.Below i →
      y.Below i → x.Sat σ → y.Sat σ → Res i σ (.rv (mkTwo norm f i x y)) :=
    fun hfb hx hy sx sy => fin (ext_two hf le_rfl (hfb _ _ (symname_below hx) (symname_below hy)) (List.mem_singleton.2 rfl)
      (fun m hm => by rw [List.mem_singleton.1 hm]; exact hy) (base hx sx sy)) (by omega)
  have shift : ∀ {x : Node} {s c : ℝ}, (mkShift norm i x s c).map Val.rv = .ok v → x.Below i → x.Sat σ →
      Res i σ v := by
    intro x s c h hx sx
    obtain ⟨n, h9, rfl⟩ := map_rv h
    obtain ⟨hc, rfl⟩ := mkShift_ok h9
    exact fin (ext_one hf le_rfl ⟨⟨symname_below hx, trivial⟩, trivial⟩ (nil _) (base0 hx sx)) (by omega)
  cases op with
  | add =>
    match a, b, ha, hb, h1, h2, h with
    | .rv x, .rv y, ha, hb, h1, h2, h => cases h; exact two (fun _ _ ha hb => ⟨ha, hb⟩) ha hb h1 h2
    | .rv x, .num d, ha, hb, h1, h2, h => exact shift h ha h1
    | .num d, .rv y, ha, hb, h1, h2, h => exact shift h hb h2
    | .num c, .num d, ha, hb, h1, h2, h => cases h; exact num _
  | sub =>
    match a, b, ha, hb, h1, h2, h with
    | .rv x, .rv y, ha, hb, h1, h2, h => cases h; exact two (fun _ _ ha hb => ⟨ha, hb⟩) ha hb h1 h2
    | .rv x, .num d, ha, hb, h1, h2, h => exact shift h ha h1
    | .num d, .rv y, ha, hb, h1, h2, h => exact shift h hb h2
    | .num c, .num d, ha, hb, h1, h2, h => cases h; exact num _
  | mul =>
    match a, b, ha, hb, h1, h2, h with
    | .rv x, .rv y, ha, hb, h1, h2, h => cases h; exact two (fun _ _ ha hb => ⟨ha, hb⟩) ha hb h1 h2
    | .rv x, .num d, ha, hb, h1, h2, h =>
      unfold Op2.run at h; simp only at h
      by_cases hd : d = 0
      · rw [if_pos hd] at h; cases h; exact num _
      · rw [if_neg hd] at h; exact shift h ha h1
    | .num d, .rv y, ha, hb, h1, h2, h =>
      unfold Op2.run at h; simp only at h
      by_cases hd : d = 0
      · rw [if_pos hd] at h; cases h; exact num _
      · rw [if_neg hd] at h; exact shift h hb h2
    | .num c, .num d, ha, hb, h1, h2, h => cases h; exact num _
  | div =>
    match a, b, ha, hb, h1, h2, h with
    | .rv x, .rv y, ha, hb, h1, h2, h => cases h; exact two (fun _ _ ha hb => ⟨ha, hb⟩) ha hb h1 h2
    | .rv x, .num d, ha, hb, h1, h2, h =>
      unfold Op2.run at h; simp only at h
      by_cases hd : d = 0
      · rw [if_pos hd] at h; cases h
      · rw [if_neg hd] at h; exact shift h ha h1
    | .num d, .rv y, ha, hb, h1, h2, h =>
      unfold Op2.run at h; simp only at h
      by_cases hd : d = 0
      · rw [if_pos hd] at h; cases h; exact num _
      · rw [if_neg hd] at h
        obtain ⟨n, h9, rfl⟩ := map_rv h
        obtain ⟨hc, rfl⟩ := mkShift_ok h9
        have e1 : Ext i σ (i + 1) (mkInv norm i y) [] :=
          ext_one hf le_rfl ⟨trivial, symname_below hb⟩ (nil _) (base0 hb h2)
        exact fin (ext_one hf i.le_succ ⟨⟨symname_below e1.1, trivial⟩, trivial⟩ (nil _) e1) (by omega)
    | .num c, .num d, ha, hb, h1, h2, h =>
      unfold Op2.run at h; simp only at h
      split_ifs at h
      cases h; exact num _
  | min =>
    match a, b, ha, hb, h1, h2, h with
    | .rv x, .rv y, ha, hb, h1, h2, h => cases h; exact two (fun _ _ ha hb => ⟨ha, hb⟩) ha hb h1 h2
    | .rv x, .num d, ha, hb, h1, h2, h => cases h
    | .num d, .rv y, ha, hb, h1, h2, h => cases h
    | .num c, .num d, ha, hb, h1, h2, h => cases h; exact num _
  | max =>
    match a, b, ha, hb, h1, h2, h with
    | .rv x, .rv y, ha, hb, h1, h2, h => cases h; exact two (fun _ _ ha hb => ⟨ha, hb⟩) ha hb h1 h2
    | .rv x, .num d, ha, hb, h1, h2, h => cases h
    | .num d, .rv y, ha, hb, h1, h2, h => cases h
    | .num c, .num d, ha, hb, h1, h2, h => cases h; exact num _
  | pow =>
    match a, b, ha, hb, h1, h2, h with
    | .rv x, .rv y, ha, hb, h1, h2, h =>
      unfold Op2.run at h; simp only at h
      cases hl : mkLog norm i x with
      | error e => rw [hl] at h; cases h
      | ok l =>
        rw [hl] at h
        cases h
        obtain ⟨hx, rfl⟩ := mkLog_ok hl
        have hyb : ∀ k, i ≤ k → ∀ m ∈ [y], m.Below k := fun k hk m hm => by
          rw [List.mem_singleton.1 hm]; exact Node.Below.mono hk hb
        have e1 : Ext i σ (i + 1) (.one i false (norm (.log x.symname)) x) [y] :=
          ext_one hf le_rfl (symname_below (n := x) ha) (hyb i le_rfl) (base ha h1 h2)
        have e2 := ext_two (f := .mul) hf i.le_succ
          ⟨symname_below e1.1, symname_below (hyb (i + 1) i.le_succ y (List.mem_singleton.2 rfl))⟩
          (List.mem_singleton.2 rfl) (hyb _ i.le_succ) e1
        exact fin (ext_one (b := true) (e := .exp _) hf (by omega) (symname_below e2.1) (hyb _ (by omega)) e2) (by omega)
    | .rv x, .num d, ha, hb, h1, h2, h =>
      unfold Op2.run at h; simp only at h
      by_cases hd : d = 0
      · rw [if_pos hd] at h; cases h; exact num _
      rw [if_neg hd] at h
      by_cases hd1 : d = 1
      · rw [if_pos hd1] at h; cases h; exact ⟨Node.Below.mono (by omega) ha, σ, fun _ _ => rfl, h1⟩
      rw [if_neg hd1] at h
      by_cases hd2 : d = -1
      · rw [if_pos hd2] at h; cases h
        exact fin (ext_one (b := false) (e := .div (.num 1) _) hf le_rfl ⟨trivial, symname_below (n := x) ha⟩ (nil _) (base0 ha h1)) (by omega)
      rw [if_neg hd2] at h
      by_cases hd3 : d = 2
      · rw [if_pos hd3] at h; cases h
        exact fin (ext_one (b := false) (e := .pow _ 2) hf le_rfl (symname_below (n := x) ha) (nil _) (base0 ha h1)) (by omega)
      rw [if_neg hd3] at h
      cases hl : mkLog norm i x with
      | error e => rw [hl] at h; cases h
      | ok l =>
        rw [hl] at h
        obtain ⟨hx, rfl⟩ := mkLog_ok hl
        cases hs : mkShift norm (i + 1) (.one i false (norm (.log x.symname)) x) 0 d with
        | error e => simp [hs, Bind.bind, Except.bind] at h
        | ok s =>
          simp only [hs, Bind.bind, Except.bind] at h
          cases h
          obtain ⟨hc, rfl⟩ := mkShift_ok hs
          have e1 : Ext i σ (i + 1) (.one i false (norm (.log x.symname)) x) [] :=
            ext_one hf le_rfl (symname_below (n := x) ha) (nil _) (base0 ha h1)
          have e2 := ext_one (b := false) (e := .add (.mul _ (.num d)) (.num 0)) hf i.le_succ
            ⟨⟨symname_below e1.1, trivial⟩, trivial⟩ (nil _) e1
          exact fin (ext_one (b := true) (e := .exp _) hf (by omega) (symname_below e2.1) (nil _) e2) (by omega)
    | .num x, .rv y, ha, hb, h1, h2, h =>
      unfold Op2.run at h; simp only at h
      by_cases hd : x = 0
      · rw [if_pos hd] at h; cases h; exact num _
      rw [if_neg hd] at h
      by_cases hd1 : x = 1
      · rw [if_pos hd1] at h; cases h; exact num _
      rw [if_neg hd1] at h
      by_cases hd2 : x < 0
      · rw [if_pos hd2] at h; cases h
      rw [if_neg hd2] at h
      cases hs : mkShift norm i y 0 (Real.log x) with
      | error e => simp [hs, Bind.bind, Except.bind] at h
      | ok s =>
        simp only [hs, Bind.bind, Except.bind] at h
        cases h
        obtain ⟨hc, rfl⟩ := mkShift_ok hs
        have e1 : Ext i σ (i + 1) (.one i false (norm (.add (.mul y.symname (.num (Real.log x))) (.num 0))) y) [] :=
          ext_one hf le_rfl ⟨⟨symname_below hb, trivial⟩, trivial⟩ (nil _) (base0 hb h2)
        exact fin (ext_one (b := true) (e := .exp _) hf i.le_succ (symname_below e1.1) (nil _) e1) (by omega)
    | .num c, .num d, ha, hb, h1, h2, h => cases h

theorem run1_solve (hf : Fresh norm) {op : Op1} {x v : Node} (hx : x.Below i) (h : op.run norm i x = .ok v) (h1 : x.Sat σ) :
    Res i σ (.rv v) := by
  have nil : ∀ k, ∀ m ∈ ([] : List Node), m.Below k := fun _ m hm => (by cases hm)
  have b0 : Ext i σ i x [] := ⟨hx, σ, fun _ _ => rfl, h1, fun m hm => (by cases hm)⟩
  have fin : ∀ {k : ℕ} {n : Node} {ns : List Node}, Ext i σ k n ns → k ≤ i + 3 → Res i σ (.rv n) :=
    fun h hk => ⟨h.1.mono hk, h.2.choose, h.2.choose_spec.1, h.2.choose_spec.2.1⟩
  have hs := symname_below hx
  cases op with
  | neg =>
    obtain ⟨_, rfl⟩ := mkShift_ok h
    exact fin (ext_one hf le_rfl ⟨⟨hs, trivial⟩, trivial⟩ (nil _) b0) (by omega)
  | log =>
    obtain ⟨_, rfl⟩ := mkLog_ok h
    exact fin (ext_one (e := .log _) hf le_rfl hs (nil _) b0) (by omega)
  | exp => cases h; exact fin (ext_one (e := .exp _) hf le_rfl hs (nil _) b0) (by omega)
  | atan => cases h; exact fin (ext_one (e := .atan _) hf le_rfl hs (nil _) b0) (by omega)
  | tanh => cases h; exact fin (ext_one (e := .tanh _) hf le_rfl hs (nil _) b0) (by omega)
  | sqrt =>
    cases h
    have hb := hf (.pow x.symname (1 / 2)) i hs
    exact ⟨⟨by omega, hb.mono (by omega), hx.mono (by omega)⟩, _, update_below σ, step hb rfl rfl σ,
      sat_congr hx (update_below σ) h1⟩
  | sign =>
    cases h
    have hb := hf (.sign x.symname) i hs
    exact ⟨⟨by omega, hb.mono (by omega), hx.mono (by omega)⟩, _, update_below σ, step hb rfl rfl σ,
      sat_congr hx (update_below σ) h1⟩
  | abs | sin | cos | tan | sigmoid => cases h

end Pacal.Symbolic
