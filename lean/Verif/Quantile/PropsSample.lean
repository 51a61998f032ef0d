import Verif.Quantile.PropsInv

/-!
C60 for the default sampler `rand_invcdf`, which evaluates the (interpolated) inverse of the distribution function as a piecewise
function (C84) at uniform random levels.
-/

namespace Pacal
namespace Quantile
open MeasureTheory Set Transform Filter Topology

variable {eps : ℝ} {q : Quad} {qp : QPar} {S : Roots.Finder ℝ} {l : PF ℝ}

/-- if each computation of `f` succeeds with enough steps, then so do all together -/
theorem mapM_eventually {β : Type} {f : ℕ → ℝ → Except PyErr β} {g : ℝ → β} : ∀ {us : List ℝ},
    (∀ u ∈ us, ∃ N, ∀ fuel, N ≤ fuel → f fuel u = .ok (g u)) → ∃ N, ∀ fuel, N ≤ fuel → us.mapM (f fuel) = .ok (us.map g)
  | [], _ => ⟨0, fun _ _ => rfl⟩
  | u :: us, h => by
    obtain ⟨M, hM⟩ := mapM_eventually fun v hv => h v (List.mem_cons_of_mem _ hv)
    obtain ⟨N, hN⟩ := h u (by simp)
    refine ⟨max N M, fun fuel hf => ?_⟩
    rw [List.mapM_cons, hN fuel ((le_max_left _ _).trans hf), hM fuel ((le_max_right _ _).trans hf)]
    rfl

/-- **C60** for `rand_invcdf` with an interpolated inverse: if interpolation moves the value at every level by at most `e`, the
values returned are `R(u)` for the levels `u`, and `R(U)` for a uniform level `U` has the distribution of the variable up to a
shift of the argument by `e`. -/
theorem C60_interpolated_partial (h : Setting eps q qp S l) (hg : ClearOfOne l) {e : ℝ} {I : ℝ → Flt → Flt}
    (hI : ∀ u ∈ Ioo (0 : ℝ) 1, ∀ (fuel : ℕ) (x : ℝ), invcdf (par eps q qp S fuel) l u = .ok (some (x : EReal)) →
      ∃ y : ℝ, I u (some (x : EReal)) = some (y : EReal) ∧ |y - x| ≤ e) :
    ∃ R : ℝ → ℝ, (∀ us : List ℝ, (∀ u ∈ us, u ∈ Ioo (0 : ℝ) 1) →
        ∃ N, ∀ fuel, N ≤ fuel → randInvcdf (par eps q qp S fuel) I l us = .ok (us.map fun u => some (R u : EReal))) ∧
      ∀ x : ℝ, (PF.law l).real (Iic (x - e)) ≤ (volume.restrict (Ioo (0 : ℝ) 1)).real {u | R u ≤ x} ∧
        (volume.restrict (Ioo (0 : ℝ) 1)).real {u | R u ≤ x} ≤ (PF.law l).real (Iic (x + e)) := by
  have := h.prob
  have key : ∀ u : ℝ, ∃ x : ℝ, u ∈ Ioo (0 : ℝ) 1 → IsQuantile (PF.law l) u (x : EReal) ∧
      ∃ N, ∀ fuel, N ≤ fuel → invcdf (par eps q qp S fuel) l u = .ok (some (x : EReal)) := by
    intro u
    by_cases hu : u ∈ Ioo (0 : ℝ) 1
    · obtain ⟨x, hx, hN⟩ := (C84_invcdf_partial h hg hu.1 hu.2).2
      obtain ⟨r, rfl⟩ := hx.finite hu.1 hu.2
      exact ⟨r, fun _ => ⟨hx, hN⟩⟩
    · exact ⟨0, fun h => absurd h hu⟩
  choose Q hQ using key
  obtain ⟨m1, m2⟩ := map_quantile (μ := PF.law l) fun u hu => (hQ u hu).1
  have hR : ∀ u : ℝ, ∃ y : ℝ, u ∈ Ioo (0 : ℝ) 1 → I u (some (Q u : EReal)) = some (y : EReal) ∧ |y - Q u| ≤ e := by
    intro u
    by_cases hu : u ∈ Ioo (0 : ℝ) 1
    · obtain ⟨-, N, hN⟩ := hQ u hu
      obtain ⟨y, hy⟩ := hI u hu N (Q u) (hN N le_rfl)
      exact ⟨y, fun _ => hy⟩
    · exact ⟨0, fun h => absurd h hu⟩
  choose R hR using hR
  have hlaw : ∀ y, (PF.law l).real (Iic y) = (volume.restrict (Ioo (0 : ℝ) 1)).real {u | Q u ≤ y} := by
    intro y
    rw [← m2, map_measureReal_apply_of_aemeasurable m1 measurableSet_Iic]
    rfl
  have hmono : ∀ A B : Set ℝ, (∀ u ∈ Ioo (0 : ℝ) 1, u ∈ A → u ∈ B) →
      (volume.restrict (Ioo (0 : ℝ) 1)).real A ≤ (volume.restrict (Ioo (0 : ℝ) 1)).real B := by
    intro A B hAB
    refine ENNReal.toReal_mono (measure_ne_top _ _) (measure_mono_ae ?_)
    filter_upwards [ae_restrict_mem measurableSet_Ioo] with u hu hA using hAB u hu hA
  refine ⟨R, fun us hus => mapM_eventually fun u hu => ?_, fun x => ⟨?_, ?_⟩⟩
  · obtain ⟨-, N, hN⟩ := hQ u (hus u hu)
    exact ⟨N, fun fuel hf => by rw [hN fuel hf, Except.map, (hR u (hus u hu)).1]⟩
  · rw [hlaw]
    refine hmono _ _ fun u hu hA => ?_
    have := abs_le.1 (hR u hu).2
    change Q u ≤ x - e at hA
    change R u ≤ x
    linarith
  · rw [hlaw]
    refine hmono _ _ fun u hu hA => ?_
    have := abs_le.1 (hR u hu).2
    change R u ≤ x at hA
    change Q u ≤ x + e
    linarith

/-- **C60** for `rand_invcdf` without interpolation (or with an exact interpolant): the distribution of the values is that of the
variable. -/
theorem C60_invcdf_partial (h : Setting eps q qp S l) (hg : ClearOfOne l) :
    ∃ Q : ℝ → ℝ, (∀ us : List ℝ, (∀ u ∈ us, u ∈ Ioo (0 : ℝ) 1) →
        ∃ N, ∀ fuel, N ≤ fuel → randInvcdf (par eps q qp S fuel) (fun _ x => x) l us = .ok (us.map fun u => some (Q u : EReal))) ∧
      (volume.restrict (Ioo (0 : ℝ) 1)).map Q = PF.law l ∧ AEMeasurable Q (volume.restrict (Ioo (0 : ℝ) 1)) := by
  have := h.prob
  have key : ∀ u : ℝ, ∃ x : ℝ, u ∈ Ioo (0 : ℝ) 1 → IsQuantile (PF.law l) u (x : EReal) ∧
      ∃ N, ∀ fuel, N ≤ fuel → invcdf (par eps q qp S fuel) l u = .ok (some (x : EReal)) := by
    intro u
    by_cases hu : u ∈ Ioo (0 : ℝ) 1
    · obtain ⟨x, hx, hN⟩ := (C84_invcdf_partial h hg hu.1 hu.2).2
      obtain ⟨r, rfl⟩ := hx.finite hu.1 hu.2
      exact ⟨r, fun _ => ⟨hx, hN⟩⟩
    · exact ⟨0, fun h => absurd h hu⟩
  choose Q hQ using key
  obtain ⟨m1, m2⟩ := map_quantile (μ := PF.law l) fun u hu => (hQ u hu).1
  refine ⟨Q, fun us hus => mapM_eventually fun u hu => ?_, m2, m1⟩
  obtain ⟨-, N, hN⟩ := hQ u (hus u hu)
  exact ⟨N, fun fuel hf => by rw [hN fuel hf]; rfl⟩

/-- the hypotheses are met (the distribution: `C84`), for instance by an interpolant that is off by 1/100 -/
example : ∃ I : ℝ → Flt → Flt, ∀ u ∈ Ioo (0 : ℝ) 1, ∀ (fuel : ℕ) (x : ℝ),
    invcdf (par 0 exactQuad ⟨0, 10, 6, 8⟩ ivtFinder fuel) exDistr u = .ok (some (x : EReal)) →
      ∃ y : ℝ, I u (some (x : EReal)) = some (y : EReal) ∧ |y - x| ≤ 1 / 100 := by
  refine ⟨fun _ x => x.map (· + ((1 / 100 : ℝ) : EReal)), fun u _ _ x _ => ⟨x + 1 / 100, ?_, ?_⟩⟩
  · change Option.map (· + ((1 / 100 : ℝ) : EReal)) (some (x : EReal)) = _
    rw [Option.map_some, ← EReal.coe_add]
  · rw [add_sub_cancel_left, abs_of_pos (by norm_num)]

end Quantile
end Pacal
