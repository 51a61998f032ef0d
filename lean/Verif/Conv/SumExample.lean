import Verif.Conv.Sub
import Verif.Push.PropsShift

/-!
Specification and lemmas for `Verif.Conv.PropsSum`.
-/

namespace Pacal
namespace Conv
open MeasureTheory Set Transform Breaks

/-- the mixture of uniform distributions on `[0, 1]` and `[3, 4]` -/
noncomputable def gapMix : PF ℝ := [.const 0 1 (1 / 2), .const 3 4 (1 / 2)]

theorem gap_breaks {P : Par} (h0 : 0 ≤ P.brkEps) (h1 : P.brkEps < 1) :
    resBreaks P gapMix [.dirac 0 1] = [.fin 0, .fin 1, .fin 4] := by
  have hs : sumBreaks gapMix [.dirac 0 1] = [.fin 0, .fin 0, .fin 1, .fin 1, .fin 4, .fin 4] := by
    have n1 : Ext.ninf ∉ breaksExt gapMix := by simp [breaksExt, gapMix, Seg.lo, Seg.hi, Ext.ninf, Ext.fin]
    have n2 : Ext.pinf ∉ breaksExt gapMix := by
      simp only [breaksExt, gapMix, Seg.lo, Seg.hi, List.map, List.mem_cons, List.not_mem_nil, or_false]
      rintro (h | h | h) <;> exact (extFin_lt_pinf _).ne' h
    have n3 : Ext.ninf ∉ breaksExt [Seg.dirac (0 : ℝ) 1] := by simp [breaksExt, Seg.lo, Seg.hi, Ext.ninf, Ext.fin]
    have n4 : Ext.pinf ∉ breaksExt [Seg.dirac (0 : ℝ) 1] := by
      simp only [breaksExt, Seg.lo, Seg.hi, List.map, List.mem_cons, List.not_mem_nil, or_false]
      rintro (h | h) <;> exact (extFin_lt_pinf _).ne' h
    have e1 : finites (breaksExt gapMix) = [0, 1, 4] := rfl
    have e2 : finites (breaksExt [Seg.dirac (0 : ℝ) 1]) = [0, 0] := rfl
    simp only [sumBreaks, n1, n2, n3, n4, e1, e2, and_false, or_false, if_false]
    simp
  have e : ∀ x, x ∈ sumBreaks gapMix [.dirac 0 1] ↔ x ∈ [Ext.fin (0 : ℝ), Ext.fin 1, Ext.fin 4] := by
    intro x; rw [hs]; simp
  have hm : ∀ {a}, Ext.fin a ∈ [Ext.fin (0 : ℝ), Ext.fin 1, Ext.fin 4] → a = 0 ∨ a = 1 ∨ a = 4 := by
    intro a ha
    simpa [Breaks.fin_inj] using ha
  have u := uniqueX_spec h0 (l := sumBreaks gapMix [.dirac 0 1]) (by
      rw [hs]
      refine List.pairwise_of_forall_mem_list ?_
      intro a ha b _ _
      rw [← hs, e] at ha
      simp only [List.mem_cons, List.not_mem_nil, or_false] at ha
      rcases ha with rfl | rfl | rfl <;> exact ⟨_, rfl⟩) (by
      intro a b ha hb hab
      rw [e] at ha hb
      rcases hm ha with rfl | rfl | rfl <;> rcases hm hb with rfl | rfl | rfl <;>
        first
        | exact absurd rfl hab
        | (norm_num; linarith))
  have hp : (resBreaks P gapMix [.dirac 0 1]).Perm [.fin 0, .fin 1, .fin 4] := by
    refine (List.perm_ext_iff_of_nodup (u.1.imp ne_of_lt) ?_).2 fun x => ((u.2 x).trans (e x))
    simp [Breaks.fin_inj]
  refine hp.eq_of_pairwise (le := (· < ·)) (fun a b _ _ h1 h2 => absurd h1 (lt_asymm h2)) u.1 ?_
  simp [extFin_lt]

theorem const_law_out (a b : ℝ) {c : ℝ} (hc : 0 ≤ c) {A : Set ℝ} (hA : MeasurableSet A) (h : ∀ x ∈ A, ¬ (a ≤ x ∧ x < b)) :
    (Seg.const a b c).law.real A = 0 := by
  rw [Seg.law_real rfl (const_dens a b hc) hA]
  exact setIntegral_eq_zero_of_forall_eq_zero fun x hx => by rw [const_val, if_neg (h x hx)]

theorem const_law_in (a b : ℝ) {c : ℝ} (hc : 0 ≤ c) (hab : a ≤ b) {A : Set ℝ} (hA : MeasurableSet A) (h : ∀ x, a ≤ x → x < b → x ∈ A) :
    (Seg.const a b c).law.real A = c * (b - a) := by
  rw [← const_mass a b hc hab, Seg.law_real rfl (const_dens a b hc) hA, Seg.law_real rfl (const_dens a b hc) MeasurableSet.univ, setIntegral_univ]
  refine setIntegral_eq_integral_of_forall_compl_eq_zero fun x hx => ?_
  rw [const_val, if_neg fun hh => hx (h x hh.1 hh.2)]

theorem law_zero_of {s : Seg ℝ} (hs : s.isDirac = false) {A : Set ℝ} (hA : MeasurableSet A) (h : ∀ x ∈ A, s.val x = 0) :
    s.law A = 0 := by
  have e : s.law = volume.withDensity fun x => ENNReal.ofReal (s.val x) := by cases s <;> first | rfl | simp [Seg.isDirac] at hs
  rw [e, withDensity_apply _ hA]
  exact setLIntegral_eq_zero hA fun x hx => by simp [h x hx]

/-- a fair mixture of 0 and the uniform distribution on `[0, 1]` -/
noncomputable def halfAtom : PF ℝ := [.dirac 0 (1 / 2), .const 0 1 (1 / 2)]

/-- exact integration, tolerances as in the library -/
noncomputable def exPar : Par := ⟨exactQuad, ⟨0, 10, 6, 8⟩, 1 / 10 ^ 14, 1 / 10 ^ 15, 1 / 10 ^ 14⟩

theorem exPar_exact : ExactQ exPar.q exPar.qp := ⟨fun _ _ _ => rfl, rfl, by norm_num [exPar], by norm_num [exPar], by norm_num [exPar]⟩

theorem halfAtom_ends {x : ℝ} (h : x ∈ halfAtom.ends) : x = 0 ∨ x = 1 := by
  obtain ⟨s, hs, h⟩ := h
  simp only [halfAtom, List.mem_cons, List.not_mem_nil, or_false] at hs
  rcases hs with rfl | rfl <;> simp only [Seg.lo, Seg.hi, Breaks.fin_inj] at h
  · left; rcases h with h | h <;> exact h.symm
  · rcases h with h | h
    · exact .inl h.symm
    · exact .inr h.symm

theorem halfAtom_args : SumArgs exPar halfAtom halfAtom := by
  have hw : PF.WF exPar.eps halfAtom :=
    wf_pair trivial (by norm_num [Seg.WF]) ⟨extFin_le.2 le_rfl, by intro a m a' m' _ h; cases h⟩
  have hh : PF.NoHole halfAtom := by
    intro s hs
    left
    intro t ht
    simp only [halfAtom, List.mem_cons, List.not_mem_nil, or_false] at hs ht
    rcases hs with rfl | rfl <;> rcases ht with rfl | rfl <;> exact le_rfl
  refine ⟨by norm_num [exPar], by norm_num [exPar], by simp [halfAtom], by simp [halfAtom], hw, hw, hh, hh, ?_⟩
  intro a ha b hb a' ha' b' hb' hne
  have hm : max exPar.brkEps exPar.eps < 1 := by norm_num [exPar]
  refine hm.trans_le ?_
  rcases halfAtom_ends ha with rfl | rfl <;> rcases halfAtom_ends hb with rfl | rfl <;> rcases halfAtom_ends ha' with rfl | rfl <;>
    rcases halfAtom_ends hb' with rfl | rfl <;>
    first
    | (exfalso; apply hne; norm_num; done)
    | norm_num

theorem halfAtom_dens : PF.Dens halfAtom := dens_pair (by norm_num [Seg.Dens]) (const_dens _ _ (by norm_num))

end Conv
end Pacal
