import Verif.NDNormal.Lemmas

/-!
Lemmas for the properties of multivariate normal distributions.
-/

namespace Pacal.NDNormal
open Pacal.NDim Matrix Function
variable {V : Type} [DecidableEq V]

theorem rest_append {vars vs ws : List V} :
    (vars.filter fun v => decide (v ∉ vs)).filter (fun v => decide (v ∉ ws)) = vars.filter fun v => decide (v ∉ vs ++ ws) := by
  rw [List.filter_filter]
  refine List.filter_congr fun v _ => ?_
  rw [Bool.eq_iff_iff]
  simp only [Bool.and_eq_true, decide_eq_true_eq, List.mem_append, not_or]
  exact and_comm

theorem eliminate_real {N : Normal V ℝ} {m : V → ℝ} {C : V → V → ℝ} (hN : Describes N m C)
    (hC : (covMatrix N.vars C).PosDef) {var : List V} (hv : ∀ v ∈ var, v ∈ N.vars) :
    ∃ r, eliminate N var = .ok r ∧ r.Describes m C ∧ (r.vars = N.vars.filter fun v => decide (v ∉ var)) ∧
      (r = .one ↔ N.vars.filter (fun v => decide (v ∉ var)) = []) := by
  obtain ⟨r, h1, h2, h3⟩ := eliminate_ok hN hv
    (posDef_sub hC fun w hw => (mem_rest.1 hw).1).det_pos.ne'
  refine ⟨r, h1, h2, h3, ?_⟩
  constructor
  · rintro rfl
    rw [← h3]
    rfl
  · intro h0
    rw [eliminate, prepare_ok hN.nodup hv] at h1
    obtain ⟨p, hp, h1⟩ := bindOk.1 h1
    cases hp
    dsimp only at h1
    rw [if_pos (by rw [hN.mu, delete_map hN.nodup hv, h0]; rfl)] at h1
    cases h1
    rfl

theorem eliminateAll_real {m : V → ℝ} {C : V → V → ℝ} : ∀ (vss : List (List V)) (N : Normal V ℝ), Describes N m C →
    (covMatrix N.vars C).PosDef → vss.flatten.Nodup → (∀ v ∈ vss.flatten, v ∈ N.vars) → N.vars ≠ [] →
    ∃ r, eliminateAll N vss = .ok r ∧ r.Describes m C ∧ (r.vars = N.vars.filter fun v => decide (v ∉ vss.flatten)) ∧
      (r = .one ↔ N.vars.filter (fun v => decide (v ∉ vss.flatten)) = [])
  | [], N, hN, _, _, _, hne => by
    refine ⟨.normal N, rfl, hN, by simp [GRes.vars], ?_⟩
    constructor
    · intro h
      cases h
    · intro h
      simp at h
      exact absurd h hne
  | var :: rest, N, hN, hC, hn, hv, hne => by
    rw [List.flatten_cons] at hn hv
    obtain ⟨hn1, hn2, hn3⟩ := List.nodup_append'.1 hn
    obtain ⟨r, h1, h2, h3, h4⟩ := eliminate_real hN hC (var := var) fun v hv' => hv v (List.mem_append_left _ hv')
    have hrest : ∀ v ∈ rest.flatten, v ∈ r.vars := by
      intro v hv'
      rw [h3, mem_rest]
      exact ⟨hv v (List.mem_append_right _ hv'), fun h => hn3 h hv'⟩
    rw [List.flatten_cons, ← rest_append, ← h3]
    cases r with
    | one =>
      have h0 : rest.flatten = [] := List.eq_nil_iff_forall_not_mem.2 fun v hv' => by
        have := hrest v hv'
        simp [GRes.vars] at this
      refine ⟨.one, ?_, trivial, by simp [GRes.vars], by simp [GRes.vars]⟩
      rw [eliminateAll]
      refine bindOk.2 ⟨_, h1, ?_⟩
      show (if rest.flatten = [] then _ else _) = _
      rw [if_pos h0]
    | normal M =>
      have hM : M.vars = N.vars.filter fun v => decide (v ∉ var) := h3
      have hMne : M.vars ≠ [] := by
        intro e
        rw [hM] at e
        have := h4.2 e
        cases this
      obtain ⟨r', a, b, c, d⟩ := eliminateAll_real rest M h2 (posDef_sub hC fun w hw => by
        rw [hM] at hw
        exact (mem_rest.1 hw).1) hn2 hrest hMne
      exact ⟨r', bindOk.2 ⟨_, h1, a⟩, b, c, d⟩

theorem res_ext {r s : GRes V ℝ} {m : V → ℝ} {C : V → V → ℝ} (hr : r.Describes m C) (hs : s.Describes m C)
    (h : r.vars = s.vars) (h1 : r = .one ↔ s = .one) : r = s := by
  cases r with
  | one => exact (h1.1 rfl).symm
  | normal N =>
    cases s with
    | one => exact h1.2 rfl
    | normal M => rw [describes_ext hr hs h]

theorem res_dens {r : GRes V ℝ} {m : V → ℝ} {C : V → V → ℝ} (hr : r.Describes m C) (σ : V → ℝ) :
    r.dens σ = normalDens r.vars m C σ := by
  cases r with
  | one => exact (normalDens_nil m C σ).symm
  | normal N => exact pdf_eq hr σ

theorem normalDens_pos {vars : List V} {m : V → ℝ} {C : V → V → ℝ} (hC : (covMatrix vars C).PosDef) (σ : V → ℝ) :
    0 < normalDens vars m C σ := by
  rw [normalDens, gdens]
  have := hC.det_pos
  have := Real.pi_pos
  positivity

theorem two_vars {vars : List V} {v c : V} (hn : vars.Nodup) (h : vars = [v, c] ∨ vars = [c, v]) :
    c ≠ v ∧ vars.filter (fun w => decide (w ∉ [v])) = [c] ∧ ∀ w, w ∈ vars ↔ w = c ∨ w ∈ [v] := by
  rcases h with rfl | rfl
  · have hne : c ≠ v := by
      rintro rfl
      simp at hn
    refine ⟨hne, ?_, ?_⟩
    · simp [hne]
    · intro w
      simp [or_comm]
  · have hne : c ≠ v := by
      rintro rfl
      simp at hn
    refine ⟨hne, ?_, ?_⟩
    · simp [hne]
    · intro w
      simp

end Pacal.NDNormal
