import Verif.Asymp.LemBuild
import Verif.Asymp.LemFind
import Verif.Asymp.Spec
import Mathlib.Topology.Algebra.Polynomial

/-! Helper lemmas: the logarithmic, the pole and the variable transform interpolators. -/

namespace Pacal.Asymp
open Nodes Mon Transform Real Polynomial Set

/-! ### logarithmic -/

/-- the offset stored by the logarithmic interpolator -/
noncomputable def logOff (a offset : ℝ) : ℝ := (if a < 0 then a + offset else offset) - 1

theorem logOff_eq (a offset : ℝ) : logOff a offset = min a 0 + offset - 1 := by
  unfold logOff
  split
  · rename_i h; rw [min_eq_left h.le]
  · rename_i h; rw [min_eq_right (not_lt.1 h), zero_add]

theorem logOff_pos {a offset x : ℝ} (ho : offset < 2 + max a 0) (hx : a ≤ x) : 0 < 1 + (x - logOff a offset) := by
  rw [logOff_eq]
  have := min_add_max a 0
  linarith

theorem logXt_xtinv {off x : ℝ} (h : 0 < 1 + (x - off)) : logXt off (logXtinv off x) = x := by
  unfold logXt logXtinv; rw [exp_log h]; ring

theorem logXtinv_xt (off u : ℝ) : logXtinv off (logXt off u) = u := by
  unfold logXt logXtinv
  rw [show 1 + (exp u - 1 + off - off) = exp u by ring, log_exp]

theorem logXt_mono (off : ℝ) : StrictMono (logXt off) := fun u v h => by
  unfold logXt; have := exp_lt_exp.2 h; linarith

theorem logI_build (s : Setting) (hs : 3 ≤ s.maxn) (f : ℝ → ℝ) (a b offset : ℝ) : ∃ n, 3 ≤ n ∧
    logI s f a (some b) offset = .ok ⟨a, b, logOff a offset, ⟨.noR, graph (fun x => log |f (logXt (logOff a offset) x)|)
      (grid .noR n (logXtinv (logOff a offset) a) (logXtinv (logOff a offset) b))⟩⟩ := by
  obtain ⟨n, hn, h⟩ := build_ok s hs .noR (fun x => log |f (logXt (logOff a offset) x)|)
    (logXtinv (logOff a offset) a) (logXtinv (logOff a offset) b)
  refine ⟨n, hn, ?_⟩
  unfold logOff at h ⊢
  unfold logI
  simp only [bind, Except.bind]
  rw [h]

theorem logXtinv_lt {a b offset : ℝ} (ho : offset < 2 + max a 0) (hab : a < b) :
    logXtinv (logOff a offset) a < logXtinv (logOff a offset) b := by
  unfold logXtinv
  exact log_lt_log (logOff_pos ho le_rfl) (by linarith)

theorem logGrid_mem {a b offset : ℝ} (ho : offset < 2 + max a 0) (hab : a < b) {n : ℕ} (hn : 3 ≤ n) :
    ∀ u ∈ grid .noR n (logXtinv (logOff a offset) a) (logXtinv (logOff a offset) b),
      logXt (logOff a offset) u ∈ Ico a b := by
  intro u hu
  have hlt := logXtinv_lt ho hab
  have h1 := grid_mem .noR (by omega) _ _ u hu
  rw [uIcc_of_le hlt.le] at h1
  have hne : u ≠ logXtinv (logOff a offset) b := fun h => last_not_mem hn hlt.ne (h ▸ hu)
  have ea := logXt_xtinv (logOff_pos ho (le_refl a))
  have eb := logXt_xtinv (logOff_pos ho hab.le)
  refine ⟨?_, ?_⟩
  · have := (logXt_mono (logOff a offset)).monotone h1.1
    rwa [ea] at this
  · have := logXt_mono (logOff a offset) (lt_of_le_of_ne h1.2 hne)
    rwa [eb] at this

theorem at_ok_map {q : Except PyErr ℝ} {g : ℝ → ℝ} {y : ℝ} (h : q = .ok y) :
    (do let z ← q; Except.ok (g z)) = (.ok (g y) : Except PyErr ℝ) := by rw [h]; rfl

theorem log_at {i : LogI} {x y : ℝ} (hx : x ≤ i.origB) (h : i.poly.at (logXtinv i.offset x) = .ok y) : i.at x = .ok (exp y) := by
  unfold LogI.at
  rw [if_neg (not_lt.2 hx)]
  exact at_ok_map h

/-! ### poles -/

theorem poleOffset_pos {eps : ℝ} (he : 0 < eps) (p : ℝ) : 0 < poleOffset eps p := by
  unfold poleOffset
  split
  · norm_num
  · rename_i h; have := abs_pos.2 h; positivity

theorem xtP_eq {a off x : ℝ} (h : 0 < x - a + off) : xtP a off (xtinvP a off x) = x + 2 * off := by
  unfold xtP xtinvP; rw [exp_log h]; ring
theorem xtinvP_xt (a off u : ℝ) : xtinvP a off (xtP a off u - 2 * off) = u := by
  unfold xtP xtinvP
  rw [show exp u + a + off - 2 * off - a + off = exp u by ring, log_exp]
theorem xtP_mono (a off : ℝ) : StrictMono (xtP a off) := fun u v h => by
  unfold xtP; have := exp_lt_exp.2 h; linarith

theorem xtN_eq {b off x : ℝ} (h : 0 < -(x - b) + off) : xtN b off (xtinvN b off x) = x - 2 * off := by
  unfold xtN xtinvN; rw [exp_log h]; ring
theorem xtinvN_xt (b off u : ℝ) : xtinvN b off (xtN b off u + 2 * off) = u := by
  unfold xtN xtinvN
  rw [show -(-exp u + b - off + 2 * off - b) + off = exp u by ring, log_exp]
theorem xtN_anti (b off : ℝ) : StrictAnti (xtN b off) := fun u v h => by
  unfold xtN; have := exp_lt_exp.2 h; linarith

/-- the sign used by the left pole interpolator -/
noncomputable def signP (y : ℝ) : ℝ := if npSign y = 0 then 1 else npSign y

theorem poleP_build (s : Setting) (hs : 3 ≤ s.maxn) (eps : ℝ) (f : ℝ → ℝ) (a b : ℝ) : ∃ n, 3 ≤ n ∧
    poleP s eps f a b = .ok ⟨a, b, poleOffset eps a, signP (f ((a + b) / 2)), ⟨.noL,
      graph (fun x => log (1 + signP (f ((a + b) / 2)) * f (xtP a (poleOffset eps a) x)))
        (grid .noL n (xtinvP a (poleOffset eps a) a) (xtinvP a (poleOffset eps a) b))⟩⟩ := by
  obtain ⟨n, hn, h⟩ := build_ok s hs .noL
    (fun x => log (1 + signP (f ((a + b) / 2)) * f (xtP a (poleOffset eps a) x)))
    (xtinvP a (poleOffset eps a) a) (xtinvP a (poleOffset eps a) b)
  refine ⟨n, hn, ?_⟩
  unfold signP at h ⊢
  unfold poleP
  simp only [bind, Except.bind]
  rw [h]

theorem poleN_build (s : Setting) (hs : 3 ≤ s.maxn) (eps : ℝ) (f : ℝ → ℝ) (a b : ℝ) : ∃ n, 3 ≤ n ∧
    poleN s eps f a b = .ok ⟨a, b, poleOffset eps b, npSign (f ((a + b) / 2)), ⟨.noR,
      graph (fun x => log (1 + npSign (f ((a + b) / 2)) * f (xtN b (poleOffset eps b) x)))
        (grid .noR n (xtinvN b (poleOffset eps b) a) (xtinvN b (poleOffset eps b) b))⟩⟩ := by
  obtain ⟨n, hn, h⟩ := build_ok s hs .noR
    (fun x => log (1 + npSign (f ((a + b) / 2)) * f (xtN b (poleOffset eps b) x)))
    (xtinvN b (poleOffset eps b) a) (xtinvN b (poleOffset eps b) b)
  refine ⟨n, hn, ?_⟩
  unfold poleN
  simp only [bind, Except.bind]
  rw [h]

theorem poleP_grid {a b off : ℝ} (ho : 0 < off) (hab : a < b) {n : ℕ} (hn : 3 ≤ n) :
    xtinvP a off a < xtinvP a off b ∧
    ∀ u ∈ grid .noL n (xtinvP a off a) (xtinvP a off b), xtP a off u ∈ Ioc (a + 2 * off) (b + 2 * off) := by
  have hlt : xtinvP a off a < xtinvP a off b := log_lt_log (by linarith) (by linarith)
  refine ⟨hlt, fun u hu => ?_⟩
  have h1 := grid_mem .noL (by omega) _ _ u hu
  rw [uIcc_of_le hlt.le] at h1
  have hne : xtinvP a off a ≠ u := fun h => first_not_mem hn hlt.ne (h ▸ hu)
  have ea := xtP_eq (a := a) (off := off) (x := a) (by linarith)
  have eb := xtP_eq (a := a) (off := off) (x := b) (by linarith)
  constructor
  · rw [← ea]; exact xtP_mono a off (lt_of_le_of_ne h1.1 hne)
  · rw [← eb]; exact (xtP_mono a off).monotone h1.2

theorem poleN_grid {a b off : ℝ} (ho : 0 < off) (hab : a < b) {n : ℕ} (hn : 3 ≤ n) :
    xtinvN b off b < xtinvN b off a ∧
    ∀ u ∈ grid .noR n (xtinvN b off a) (xtinvN b off b), xtN b off u ∈ Ico (a - 2 * off) (b - 2 * off) := by
  have hlt : xtinvN b off b < xtinvN b off a := log_lt_log (by linarith) (by linarith)
  refine ⟨hlt, fun u hu => ?_⟩
  have h1 := grid_mem .noR (by omega) _ _ u hu
  rw [uIcc_of_ge hlt.le] at h1
  have hne : u ≠ xtinvN b off b := fun h => last_not_mem hn hlt.ne' (h ▸ hu)
  have ea := xtN_eq (b := b) (off := off) (x := a) (by linarith)
  have eb := xtN_eq (b := b) (off := off) (x := b) (by linarith)
  constructor
  · rw [← ea]; exact (xtN_anti b off).antitone h1.2
  · rw [← eb]; exact xtN_anti b off (lt_of_le_of_ne h1.1 hne.symm)

/-! ### variable transforms -/

theorem varI_build (s : Setting) (hs : 3 ≤ s.maxn) (f : ℝ → ℝ) (vt : VT) : ∃ n, 3 ≤ n ∧
    varI s f vt = .ok ⟨vt, ⟨.full, graph (fun t => applyScalar vt f t 0 false) (grid .full n vt.varMin vt.varMax)⟩⟩ := by
  obtain ⟨n, hn, h⟩ := build_ok s hs .full (fun t => applyScalar vt f t 0 false) vt.varMin vt.varMax
  refine ⟨n, hn, ?_⟩
  unfold varI
  simp only [bind, Except.bind]
  rw [h]

theorem apply_dom {vt : VT} {f : ℝ → ℝ} {t : ℝ} (h : t ∉ vt.varInf) : applyScalar vt f t 0 false = f (vt.inv t) := by
  unfold applyScalar; rw [if_neg h]; simp

/-- nodes of a variable transform interpolator -/
theorem varI_nodes {vt : VT} {D : Set ℝ} (hv : IsChange vt D) (f : ℝ → ℝ) {n : ℕ} (hn : 3 ≤ n) :
    let i : VarI := ⟨vt, ⟨.full, graph (fun t => applyScalar vt f t 0 false) (grid .full n vt.varMin vt.varMax)⟩⟩
    ∀ p ∈ i.nodes, p.1 ∈ D ∧ p.2 = f p.1 ∧ i.at p.1 = .ok (f p.1) := by
  intro i p hp
  unfold VarI.nodes at hp
  obtain ⟨q, hq, rfl⟩ := List.mem_map.1 hp
  obtain ⟨hq, hinf⟩ := List.mem_filter.1 hq
  simp only [decide_eq_true_eq] at hinf
  obtain ⟨t, ht, rfl⟩ := List.mem_map.1 hq
  have htd : t ∈ vt.dom := ⟨by
    have := grid_mem .full (by omega) _ _ t ht
    rwa [uIcc_of_le hv.order] at this, hinf⟩
  refine ⟨hv.maps t htd, apply_dom hinf, ?_⟩
  change Base.eval _ _ (vt.varChange (vt.inv t)) = _
  rw [hv.left t htd]
  rw [eval_node .full _ _ ht, apply_dom hinf]

end Pacal.Asymp
