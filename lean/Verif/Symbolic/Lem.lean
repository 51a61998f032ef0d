import Verif.Symbolic.Spec

/-! Lemmas about the constructors. -/

namespace Pacal.Symbolic
variable {norm : Sym → Sym} {σ : ℕ → ℝ}

theorem one_value (hn : Sound norm) {i : ℕ} {b : Bool} {e : Sym} {d : Node} (h : (Node.one i b (norm e) d).Sat σ) :
    (Node.one i b (norm e) d).symname.eval σ = e.eval σ := h.1.trans (hn e σ)

theorem two_value (hn : Sound norm) {f : Sym → Sym → Sym} {i : ℕ} {d e : Node} (h : (mkTwo norm f i d e).Sat σ) :
    (mkTwo norm f i d e).symname.eval σ = (f d.symname e.symname).eval σ := h.1.trans (hn _ σ)

theorem mkShift_ok {i : ℕ} {d n : Node} {s c : ℝ} (h : mkShift norm i d s c = .ok n) :
    c ≠ 0 ∧ n = .one i false (norm (.add (.mul d.symname (.num c)) (.num s))) d := by
  unfold mkShift at h
  split_ifs at h with hc
  cases h
  exact ⟨hc, rfl⟩

theorem mkLog_ok {i : ℕ} {d n : Node} (h : mkLog norm i d = .ok n) :
    (∃ j s p, d = .one j true s p) ∧ n = .one i false (norm (.log d.symname)) d := by
  unfold mkLog at h
  match d, h with
  | .one j true s p, h => cases h; exact ⟨⟨j, s, p, rfl⟩, rfl⟩
  | .one j false s p, h => cases h
  | .leaf _, h => cases h
  | .two .., h => cases h
  | .nested .., h => cases h
  | .bare .., h => cases h

theorem exp_pos_value {d : Node} (hd : ∃ j s p, d = .one j true s p) (hp : d.Proper) (hs : d.Sat σ) :
    0 < d.symname.eval σ := by
  obtain ⟨j, s, p, rfl⟩ := hd
  have h1 : (Node.one j true s p).symname.eval σ = s.eval σ := hs.1
  rw [h1]
  exact hp.1 rfl σ

theorem proper_exp (hn : Sound norm) {i : ℕ} {d : Node} (h : d.Proper) : (mkExp norm i d).Proper :=
  ⟨fun _ σ => by rw [hn]; exact Real.exp_pos _, h⟩

theorem proper_plain {i : ℕ} {s : Sym} {d : Node} (h : d.Proper) : (Node.one i false s d).Proper :=
  ⟨fun h => (by cases h), h⟩

theorem map_rv {e : Except PyErr Node} {v : Val} (h : e.map Val.rv = .ok v) : ∃ n, e = .ok n ∧ v = .rv n := by
  cases e with
  | error _ => cases h
  | ok n => cases h; exact ⟨n, rfl, rfl⟩

end Pacal.Symbolic
