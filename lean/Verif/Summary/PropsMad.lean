import Verif.Summary.LemMad

/-!
The median absolute deviation (C74).

The full property is for every distribution; the theorem is for continuous distributions whose pieces leave no gap, with exact
quadrature and an exact root finder (as for C08).  With gaps the median itself is not always right (`C08_violated_gap`).
-/

namespace Pacal.Summary
open MeasureTheory Set Quantile Transform Roots Identity

variable {eps : ℝ} {q : Quad} {qp : QPar} {S : Finder ℝ} {l : PF ℝ}

/-- **C74**: the median absolute deviation of a continuous distribution is a median of `|X - m|`, where `m` is a median of `X` -/
theorem C74_medianad_partial (h : Setting eps q qp S l) (hc : ∀ s ∈ l, s.isDirac = false) :
    ∃ d : EReal, IsMedianAD (PF.law l) d ∧ ∃ N, ∀ fuel, N ≤ fuel → medianad (par eps q qp S fuel) l = .ok (some d) := by
  have := h.prob
  obtain ⟨x, hx, N₁, hN₁⟩ := C08_quantile_partial h (y := 1 / 2) (by norm_num) (by norm_num)
  obtain ⟨m, rfl⟩ := hx.finite (by norm_num) (by norm_num)
  obtain ⟨f1, e1, w1, d1, l1⟩ := C18_law_continuous h.eps_nonneg (scale := 1) one_ne_zero (-m) h.wf h.dens hc
  have t1 := shift_tidy one_ne_zero (tidy_of_chain h.wf hc h.ne h.chain) e1
  rw [shiftedScaled, if_pos one_ne_zero] at e1
  have hp : ([0] : List ℝ).Pairwise (· < ·) := by simp
  obtain ⟨f2, e2, w2, d2, l2⟩ := C04_law h.eps_nonneg [0] hp f1 w1 d1
  have t2 := split_tidy h.eps_nonneg hp w1 t1 e2
  obtain ⟨f3, e3, w3, d3, l3⟩ := C19_law_continuous h.eps_nonneg w2 d2 t2.cont
  obtain ⟨c3, -, t3⟩ := abs_shape h.eps_nonneg w2 d2 t2.cont e3 w3
  have hlaw : PF.law f3 = (PF.law l).map fun x => |x - m| := by
    rw [l3, l2, l1, Measure.map_map (by fun_prop) (by fun_prop)]
    congr 1
    funext x
    simp [sub_eq_add_neg]
  have hs : Setting eps q qp S f3 := ⟨h.eps_nonneg, h.quad, h.finder, (t3 t2).ne, w3, d3, by
    rw [hlaw, Measure.real, Measure.map_apply (by fun_prop) MeasurableSet.univ]
    simp, chain_of_noHole w3 c3 (t3 t2).hole⟩
  obtain ⟨d, hd, N₂, hN₂⟩ := C08_quantile_partial hs (y := 1 / 2) (by norm_num) (by norm_num)
  refine ⟨d, ⟨m, hx, hlaw ▸ hd⟩, max N₁ N₂, fun fuel hf => ?_⟩
  rw [medianad, median, hN₁ fuel ((le_max_left _ _).trans hf)]
  show (match (l.copyShiftedAndScaled eps (-m) 1).bind fun f1 => (f1.splitByPoints eps [0]).bind fun f2 => f2.copyAbsComposition eps with
      | some f3 => median (par eps q qp S fuel) f3
      | none => .error .assertion) = _
  rw [e1, Option.bind_some, e2, Option.bind_some, e3]
  exact hN₂ fuel ((le_max_right _ _).trans hf)

example : ∃ d : EReal, IsMedianAD (PF.law [.const 0 1 1]) d ∧
    ∃ N, ∀ fuel, N ≤ fuel → medianad (par 0 exactQuad ⟨0, 10, 6, 8⟩ ivtFinder fuel) [.const 0 1 1] = .ok (some d) :=
  C74_medianad_partial unit_setting (by simp [Seg.isDirac])

end Pacal.Summary
