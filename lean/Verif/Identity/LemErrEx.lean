import Verif.Identity.LemErr
import Verif.Law.Congr

/-!
An approximation for the examples of C91: every density is too small by a thousandth.
-/

namespace Pacal.Identity
open MeasureTheory ProbabilityTheory Set

/-- a piece which is too small by a thousandth -/
noncomputable def shrinkSeg : Seg ℝ → Seg ℝ
  | .fin p a b f => .fin p a b fun x => 999 / 1000 * f x
  | .minf b f => .minf b fun x => 999 / 1000 * f x
  | .pinf a f => .pinf a fun x => 999 / 1000 * f x
  | s => s

/-- a density whose pieces are too small by a thousandth -/
noncomputable def shrink (l : PF ℝ) : PF ℝ := l.map shrinkSeg

theorem shrinkSeg_redrawn (s : Seg ℝ) : Redrawn s (shrinkSeg s) := by cases s <;> constructor

theorem shrinkSeg_val (s : Seg ℝ) (x : ℝ) : (shrinkSeg s).val x = 999 / 1000 * s.val x ∨ (shrinkSeg s).val x = s.val x := by
  cases s
  case fin => left; simp only [shrinkSeg, Seg.val, Seg.isDirac, Seg.lo, Seg.hi, Seg.fn]; split_ifs <;> simp
  case minf => left; simp only [shrinkSeg, Seg.val, Seg.isDirac, Seg.lo, Seg.hi, Seg.fn]; split_ifs <;> simp
  case pinf => left; simp only [shrinkSeg, Seg.val, Seg.isDirac, Seg.lo, Seg.hi, Seg.fn]; split_ifs <;> simp
  all_goals right; rfl

theorem shrinkSeg_fun (s : Seg ℝ) :
    (fun x => (shrinkSeg s).val x) = (fun x => 999 / 1000 * s.val x) ∨ (fun x => (shrinkSeg s).val x) = fun x => s.val x := by
  cases s
  case fin => left; funext x; simp only [shrinkSeg, Seg.val, Seg.isDirac, Seg.lo, Seg.hi, Seg.fn]; split_ifs <;> simp
  case minf => left; funext x; simp only [shrinkSeg, Seg.val, Seg.isDirac, Seg.lo, Seg.hi, Seg.fn]; split_ifs <;> simp
  case pinf => left; funext x; simp only [shrinkSeg, Seg.val, Seg.isDirac, Seg.lo, Seg.hi, Seg.fn]; split_ifs <;> simp
  all_goals right; rfl

theorem shrinkSeg_dens {s : Seg ℝ} (h : s.Dens) : (shrinkSeg s).Dens := by
  cases hs : s.isDirac
  · have hs' : (shrinkSeg s).isDirac = false := by rw [(shrinkSeg_redrawn s).isDirac, hs]
    obtain ⟨h1, h2⟩ := (Seg.dens_of_not hs).1 h
    refine (Seg.dens_of_not hs').2 ⟨?_, ?_⟩
    · filter_upwards [h1] with x hx
      rcases shrinkSeg_val s x with e | e <;> rw [e]
      · positivity
      · exact hx
    · rcases shrinkSeg_fun s with e | e <;> rw [e]
      · exact h2.const_mul _
      · exact h2
  · cases s <;> simp_all [shrinkSeg, Seg.isDirac]

theorem shrink_close : ∀ {l : PF ℝ}, PF.Dens l → ∀ᵐ x, |(shrink l).val x - l.val x| ≤ 1 / 1000 * l.val x
  | [], _ => by simp [shrink, PF.val]
  | s :: l, h => by
    filter_upwards [shrink_close (PF.dens_cons.1 h).2, Pacal.val_nonneg (PF.dens_cons.1 h).1] with x h1 h2
    rw [show shrink (s :: l) = shrinkSeg s :: shrink l from rfl, PF.val_cons, PF.val_cons]
    rcases shrinkSeg_val s x with e | e <;> rw [e] <;> rw [abs_le] at h1 ⊢ <;> constructor <;> linarith [h1.1, h1.2]

theorem integral_val_le : ∀ {l : PF ℝ}, PF.Dens l → ∫ x, l.val x ≤ (PF.law l).real univ
  | [], _ => by simp [PF.val]
  | s :: l, h => by
    obtain ⟨h1, h2⟩ := PF.dens_cons.1 h
    rw [PF.law_real_cons h]
    cases hs : s.isDirac
    · have e : (fun x => PF.val (s :: l) x) = fun x => s.val x + PF.val l x := by funext x; rw [PF.val_cons]
      rw [e, integral_add ((Seg.dens_of_not hs).1 h1).2 (integrable_val h2), Seg.law_real hs h1 MeasurableSet.univ, setIntegral_univ]
      linarith [integral_val_le h2]
    · have e : (fun x => PF.val (s :: l) x) = fun x => PF.val l x := by funext x; rw [PF.val_cons, Seg.val, hs]; simp
      rw [e]
      linarith [integral_val_le h2, measureReal_nonneg (μ := s.law) (s := univ)]

theorem shrink_accurate {M : Machine} : Accurate M (fun _ => shrink) fun _ => 1 / 500 := by
  refine ⟨fun _ l => ?_, fun _ l _ hd _ s hs => ?_, fun _ l _ hd h2 => ?_⟩
  · induction l with
    | nil => exact .nil
    | cons s l ih => exact .cons (shrinkSeg_redrawn s) ih
  · obtain ⟨u, hu, rfl⟩ := List.mem_map.1 hs
    exact shrinkSeg_dens (hd u hu)
  · have hs : PF.Dens (shrink l) := fun s hs => by
      obtain ⟨u, hu, rfl⟩ := List.mem_map.1 hs
      exact shrinkSeg_dens (hd u hu)
    refine (integral_mono_ae ((integrable_val hs).sub (integrable_val hd)).abs ((integrable_val hd).const_mul (1 / 1000))
      (shrink_close hd)).trans ?_
    rw [integral_const_mul]
    linarith [integral_val_le hd]

end Pacal.Identity
