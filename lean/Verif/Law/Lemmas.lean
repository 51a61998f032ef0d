import Verif.Law.Spec
import Verif.Law.Model
import Verif.Segments.Eval
import Verif.Transform.PropsFront
import Mathlib.MeasureTheory.Function.L1Space.Integrable
import Mathlib.MeasureTheory.Integral.Bochner.Set
import Mathlib.MeasureTheory.Measure.Real

/-! Lemmas about the measure of a piecewise function. -/

namespace Pacal
open MeasureTheory Set

theorem Seg.law_of_not {s : Seg ℝ} (h : s.isDirac = false) :
    s.law = volume.withDensity fun x => ENNReal.ofReal (s.val x) := by
  cases s <;> first | rfl | simp [Seg.isDirac] at h

theorem Seg.dens_of_not {s : Seg ℝ} (h : s.isDirac = false) :
    s.Dens ↔ (∀ᵐ x, 0 ≤ s.val x) ∧ Integrable (fun x => s.val x) volume := by
  cases s <;> first | rfl | simp [Seg.isDirac] at h

theorem Seg.law_apply {s : Seg ℝ} (hs : s.isDirac = false) (hd : s.Dens) {A : Set ℝ} (hA : MeasurableSet A) :
    s.law A = ENNReal.ofReal (∫ x in A, s.val x) := by
  obtain ⟨h0, hi⟩ := (Seg.dens_of_not hs).1 hd
  rw [Seg.law_of_not hs, withDensity_apply _ hA,
    ofReal_integral_eq_lintegral_ofReal hi.integrableOn (ae_restrict_of_ae h0)]

theorem Seg.law_real {s : Seg ℝ} (hs : s.isDirac = false) (hd : s.Dens) {A : Set ℝ} (hA : MeasurableSet A) :
    s.law.real A = ∫ x in A, s.val x := by
  obtain ⟨h0, hi⟩ := (Seg.dens_of_not hs).1 hd
  rw [Measure.real, Seg.law_apply hs hd hA, ENNReal.toReal_ofReal (integral_nonneg_of_ae (ae_restrict_of_ae h0))]

theorem Seg.law_real_dirac {a m : ℝ} (hm : 0 ≤ m) {A : Set ℝ} (hA : MeasurableSet A) :
    (Seg.dirac a m).law.real A = A.indicator (fun _ => m) a := by
  simp only [Seg.law, Measure.real, Measure.smul_apply, Measure.dirac_apply' _ hA, smul_eq_mul]
  by_cases h : a ∈ A <;> simp [h, hm]

theorem Seg.law_finite {s : Seg ℝ} (hd : s.Dens) : IsFiniteMeasure s.law := by
  cases h : s.isDirac
  · exact ⟨by rw [Seg.law_apply h hd MeasurableSet.univ]; exact ENNReal.ofReal_lt_top⟩
  · cases s <;> simp [Seg.isDirac] at h
    exact ⟨by simp [Seg.law]⟩

@[simp] theorem PF.law_nil : PF.law [] = 0 := rfl

theorem PF.law_cons (s : Seg ℝ) (l : PF ℝ) : PF.law (s :: l) = s.law + PF.law l := by simp [PF.law]

theorem PF.law_append (l₁ l₂ : PF ℝ) : PF.law (l₁ ++ l₂) = PF.law l₁ + PF.law l₂ := by simp [PF.law]

theorem PF.dens_cons {s : Seg ℝ} {l : PF ℝ} : PF.Dens (s :: l) ↔ s.Dens ∧ PF.Dens l := by simp [PF.Dens]

theorem PF.law_finite : ∀ {l : PF ℝ}, PF.Dens l → IsFiniteMeasure (PF.law l)
  | [], _ => by rw [PF.law_nil]; infer_instance
  | s :: l, h => by
    have := Seg.law_finite (PF.dens_cons.1 h).1
    have := PF.law_finite (PF.dens_cons.1 h).2
    rw [PF.law_cons]; infer_instance

theorem PF.law_real_cons {s : Seg ℝ} {l : PF ℝ} (h : PF.Dens (s :: l)) (A : Set ℝ) :
    (PF.law (s :: l)).real A = s.law.real A + (PF.law l).real A := by
  have := Seg.law_finite (PF.dens_cons.1 h).1
  have := PF.law_finite (PF.dens_cons.1 h).2
  rw [PF.law_cons, measureReal_add_apply]

theorem PF.law_real_eq_sum : ∀ {l : PF ℝ}, PF.Dens l → ∀ A : Set ℝ,
    (PF.law l).real A = (l.map fun s => s.law.real A).sum
  | [], _, A => by simp
  | s :: l, h, A => by
    rw [PF.law_real_cons h, PF.law_real_eq_sum (PF.dens_cons.1 h).2]; simp

end Pacal
