import Verif.Summary.LemInfo
import Verif.Summary.LemKL
import Verif.Law.PropsCdf

/-!
Specification and lemmas for `Verif.Summary.PropsInfo`.
-/

namespace Pacal.Summary
open MeasureTheory Set Transform InformationTheory

variable {P : DPar} {l f g : PF ℝ} {φ ψ : ℝ → ℝ} {A : Finset ℝ} {a b : ℝ → ℝ}

/-- the law of a piecewise distribution is of the form `mix` -/
theorem law_mix (hd : PF.Dens l) (hA : ∀ a m, Seg.dirac a m ∈ l → a ∈ A) : PF.law l = mix (fun x => l.val x) A fun x => l.massAt x :=
  PF.law_decomp hd hA

theorem val_ae (hd : PF.Dens l) (hφ : AEMeasurable φ volume) (h0 : ∀ x, 0 ≤ φ x) (h : PF.law l = mix φ A a) :
    (fun x => l.val x) =ᵐ[volume] φ :=
  mix_unique (PF.val_integrable hd) hφ (PF.val_nonneg hd) (.of_forall h0) ((law_mix hd fun _ _ => PF.mem_atomSet).symm.trans h)

theorem mass_eq (hd : PF.Dens l) (ha : ∀ x ∈ A, 0 ≤ a x) (h : PF.law l = mix φ A a) (x : ℝ) :
    l.massAt x = open Classical in if x ∈ A then a x else 0 := by
  rw [← law_singleton hd, h, mix_singleton φ ha]

theorem unif_wf {a b c : ℝ} (h : a < b) : PF.WF 0 [.const a b c] := by
  refine ⟨?_, by simp⟩
  intro s hs
  rw [List.mem_singleton] at hs
  subst hs
  exact h

theorem unif_dens (a b : ℝ) {c : ℝ} (h : 0 ≤ c) : PF.Dens [.const a b c] := by
  intro s hs
  rw [List.mem_singleton] at hs
  subst hs
  exact const_dens a b h

theorem unif_val (a b c x : ℝ) : PF.val [.const a b c] x = (Ico a b).indicator (fun _ => c) x := by
  simp only [PF.val, List.map_cons, List.map_nil, List.sum_cons, List.sum_nil, add_zero, const_val]
  simp [indicator]

theorem unif_law (a b : ℝ) {c : ℝ} (h : 0 ≤ c) :
    PF.law [.const a b c] = volume.withDensity fun x => ENNReal.ofReal ((Ico a b).indicator (fun _ => c) x) := by
  rw [law_mix (A := ∅) (unif_dens a b h) (by simp), mix]
  simp only [unif_val, Finset.sum_empty, add_zero]

theorem unif_real (a b : ℝ) {c : ℝ} (h : 0 ≤ c) (hab : a ≤ b) : (PF.law [.const a b c]).real univ = c * (b - a) := by
  rw [PF.law_real_eq_sum (unif_dens a b h)]
  simp [const_mass a b h hab]

theorem unif_covered {a b c x : ℝ} : Covered [.const a b c] x ↔ x ∈ Ico a b := by
  simp [Covered, Seg.isDirac, Seg.lo, Seg.hi, Ext.fin]

/-- the computed distance of two uniform distributions: `log g` counts as 0 outside the second interval -/
theorem kl_unif (q : Quad) (qp : QPar) (big : ℝ) (hq : ExactQ q qp) {a b c a' b' c' : ℝ} (h : a < b) (h' : a' < b') (hc : 0 < c) (hc' : 0 < c') :
    klDistance ⟨0, q, qp, big⟩ [.const a b c] [.const a' b' c'] =
      some (∫ x in Ico a b, c * (Real.log c - (Ico a' b').indicator (fun _ => Real.log c') x)) := by
  obtain ⟨lf, e1, w1, v1, v1', m1⟩ := mapFn_ok le_rfl (safeLog big) (unif_wf (c := c) h) (by intro a m h; simp at h)
  obtain ⟨lg, e2, w2, v2, v2', m2⟩ := mapFn_ok le_rfl (safeLog big) (unif_wf (c := c') h') (by intro a m h; simp at h)
  obtain ⟨d, e3, w3, v3, m3, a3⟩ := operation_same le_rfl (op := fun x y => x - y) (by simp) w1 w2 (fun x => by
    refine iff_of_false ?_ ?_
    · rintro ⟨m, hm⟩; obtain ⟨n, hn, -⟩ := (m1 x m).1 hm; simp at hn
    · rintro ⟨m, hm⟩; obtain ⟨n, hn, -⟩ := (m2 x m).1 hm; simp at hn)
  obtain ⟨r, e4, w4, v4, m4, a4⟩ := operation_same le_rfl (op := fun x y => x * y) (by simp) (unif_wf (c := c) h) w3 (fun x => by
    refine iff_of_false (by simp) ?_
    intro hx; obtain ⟨m, hm⟩ := (a3 x).1 hx; obtain ⟨n, hn, -⟩ := (m1 x m).1 hm; simp at hn)
  have hv : (fun x => r.val x) = (Ico a b).indicator fun x => c * (Real.log c - (Ico a' b').indicator (fun _ => Real.log c') x) := by
    funext x
    rw [v4, unif_val]
    by_cases hx : x ∈ Ico a b
    · rw [indicator_of_mem hx, indicator_of_mem hx, v3, v1 x (unif_covered.2 hx), unif_val, indicator_of_mem hx, safeLog_pos hc]
      congr 2
      by_cases hy : x ∈ Ico a' b'
      · rw [v2 x (unif_covered.2 hy), unif_val, indicator_of_mem hy, safeLog_pos hc', indicator_of_mem hy]
      · rw [v2' x (mt unif_covered.1 hy), indicator_of_notMem hy]
    · rw [indicator_of_notMem hx, indicator_of_notMem hx, zero_mul]
  have hi : Integrable (fun x => r.val x) volume := by
    rw [hv, integrable_indicator_iff measurableSet_Ico]
    refine (Integrable.sub ?_ ?_).const_mul c
    · exact integrableOn_const (by simp)
    · refine Integrable.indicator ?_ measurableSet_Ico
      exact integrableOn_const (by simp)
  rw [klDistance, e1, Option.bind_some, e2, Option.bind_some, e3, Option.bind_some, e4, Option.map_some,
    integrate_total hq w4 hi (A := ∅) (fun x m hm => by
      obtain ⟨n, hn⟩ := (a4 x).1 ⟨m, hm⟩; simp at hn), hv, integral_indicator measurableSet_Ico]
  simp

theorem coin_law {p r : ℝ} : PF.law [.dirac 0 p, .dirac 1 r] = ENNReal.ofReal p • Measure.dirac 0 + ENNReal.ofReal r • Measure.dirac 1 := by
  simp [PF.law, Seg.law]

theorem coin_wf (p r : ℝ) : PF.WF 0 [.dirac 0 p, .dirac 1 r] := by
  refine ⟨by simp [Seg.WF], List.pairwise_cons.2 ⟨?_, by simp⟩⟩
  intro s hs
  rw [List.mem_singleton] at hs
  subst hs
  refine ⟨by simp [Seg.hi, Seg.lo, Ext.fin], ?_⟩
  intro a m a' m' h1 h2
  cases h1; cases h2; norm_num

theorem coin_dens {p r : ℝ} (hp : 0 ≤ p) (hr : 0 ≤ r) : PF.Dens [.dirac 0 p, .dirac 1 r] := by
  intro s hs
  simp only [List.mem_cons, List.not_mem_nil, or_false] at hs
  rcases hs with rfl | rfl
  · exact hp
  · exact hr

theorem coin_real {p r : ℝ} (hp : 0 ≤ p) (hr : 0 ≤ r) (h : p + r = 1) : (PF.law [.dirac 0 p, .dirac 1 r]).real univ = 1 := by
  rw [coin_law, Measure.real, Measure.add_apply]
  simp [← ENNReal.ofReal_add hp hr, h]

theorem coin_null {p r : ℝ} (hp : 0 < p) (hr : 0 < r) (B : Set ℝ) (hB : MeasurableSet B) :
    PF.law [.dirac 0 p, .dirac 1 r] B = 0 ↔ 0 ∉ B ∧ 1 ∉ B := by
  rw [coin_law, Measure.add_apply, add_eq_zero, Measure.smul_apply, Measure.smul_apply, Measure.dirac_apply' _ hB, Measure.dirac_apply' _ hB]
  simp [indicator, hp.not_ge, hr.not_ge]

end Pacal.Summary
