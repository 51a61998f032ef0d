import Verif.Cond.Clip
import Verif.Conv.SumExample

/-! Distributions used to show that the hypotheses of property C24 are met. -/

namespace Pacal
namespace Cond
open MeasureTheory Set Transform Conv

theorem apartOne_halves {S : Set ℝ} (h : ∀ x ∈ S, ∃ k : ℤ, x = k / 2 ∧ |k| ≤ 10) : ApartOne exPar.eps S := by
  have key : ∀ a ∈ S ∪ {-1, 0, 1}, ∀ b ∈ ({-1, 0, 1} : Set ℝ), ∃ k : ℤ, a * b = k / 2 ∧ |k| ≤ 10 := by
    intro a ha b hb
    have ha : ∃ k : ℤ, a = k / 2 ∧ |k| ≤ 10 := by
      rcases ha with ha | rfl | rfl | rfl
      · exact h a ha
      · exact ⟨-2, by norm_num, by norm_num⟩
      · exact ⟨0, by norm_num, by norm_num⟩
      · exact ⟨2, by norm_num, by norm_num⟩
    obtain ⟨k, rfl, hk⟩ := ha
    rcases hb with rfl | rfl | rfl
    · exact ⟨-k, by push_cast; ring, by rwa [abs_neg]⟩
    · exact ⟨0, by norm_num, by norm_num⟩
    · exact ⟨k, by ring, hk⟩
  intro a ha b hb a' ha' b' hb' hne
  obtain ⟨k, hk, hk'⟩ := key a ha b hb
  obtain ⟨j, hj, -⟩ := key a' ha' b' hb'
  rw [hk, hj] at hne ⊢
  have hd : k - j ≠ 0 := fun h0 => hne (by rw [sub_eq_zero.1 h0])
  have h1 : (1 : ℝ) ≤ |(k : ℝ) - j| := by exact_mod_cast Int.one_le_abs hd
  have h2 : |(k : ℝ)| ≤ 10 := by exact_mod_cast hk'
  have h3 : max 1 |(k : ℝ) / 2| ≤ 5 := by
    refine max_le (by norm_num) ?_
    rw [abs_div, abs_two]; linarith
  have h4 : |(k : ℝ) / 2 - j / 2| = |(k : ℝ) - j| / 2 := by rw [← sub_div, abs_div, abs_two]
  rw [h4]
  have h5 : exPar.eps * max 1 |(k : ℝ) / 2| ≤ exPar.eps * 5 := mul_le_mul_of_nonneg_left h3 (by norm_num [exPar])
  have h6 : exPar.eps * 5 < 1 / 2 := by norm_num [exPar]
  linarith

theorem halfAtom_prob : PF.law halfAtom univ = 1 := by
  have h : PF.law halfAtom = (Seg.dirac 0 (1 / 2) : Seg ℝ).law + (Seg.const 0 1 (1 / 2)).law := by
    rw [halfAtom, PF.law_cons, PF.law_cons, PF.law_nil, add_zero]
  rw [h, Measure.add_apply]
  have h1 : (Seg.const 0 1 (1 / 2) : Seg ℝ).law univ = ENNReal.ofReal (1 / 2) := by
    have := Seg.law_finite (const_dens (0 : ℝ) 1 (c := 1 / 2) (by norm_num))
    rw [← ofReal_measureReal, const_mass 0 1 (by norm_num) (by norm_num)]
    norm_num
  rw [h1]
  simp only [Seg.law, Measure.smul_apply, measure_univ, smul_eq_mul, mul_one]
  rw [← ENNReal.ofReal_add (by norm_num) (by norm_num)]
  norm_num

theorem halfAtom_cond {T : Set ℝ} (hT : ∀ c ∈ T, ∃ k : ℤ, c = k / 2 ∧ |k| ≤ 10) : Args exPar halfAtom T := by
  refine ⟨by norm_num [exPar], by simp [halfAtom], halfAtom_args.fwf, halfAtom_dens, halfAtom_prob, ?_, apartOne_halves ?_⟩
  · intro c hc a m hm
    simp only [halfAtom, List.mem_cons, List.not_mem_nil, or_false, reduceCtorEq, Seg.dirac.injEq] at hm
    obtain ⟨rfl, -⟩ := hm
    obtain ⟨k, rfl, -⟩ := hT c hc
    by_cases hk : k = 0
    · left; rw [hk]; norm_num
    · right
      have h1 : (1 : ℝ) ≤ |(k : ℝ)| := by exact_mod_cast Int.one_le_abs hk
      rw [sub_zero, abs_div, abs_two]
      have : exPar.eps < 1 / 2 := by norm_num [exPar]
      linarith
  · rintro x (hx | hx)
    · exact hT x hx
    · rcases halfAtom_ends hx with rfl | rfl
      · exact ⟨0, by norm_num, by norm_num⟩
      · exact ⟨2, by norm_num, by norm_num⟩

/-- the uniform part of `halfAtom` -/
theorem halfAtom_pos {A : Set ℝ} (hA : MeasurableSet A) {u v : ℝ} (hu : 0 ≤ u) (huv : u < v) (hv : v ≤ 1) (h : Ioo u v ⊆ A) :
    PF.law halfAtom A ≠ 0 := by
  have e : PF.law halfAtom = (Seg.dirac 0 (1 / 2) : Seg ℝ).law + (Seg.const 0 1 (1 / 2)).law := by
    rw [halfAtom, PF.law_cons, PF.law_cons, PF.law_nil, add_zero]
  rw [e, Measure.add_apply]
  intro h0
  have h0 := (add_eq_zero.1 h0).2
  have h0 := measure_mono_null h h0
  rw [show (Seg.const 0 1 (1 / 2) : Seg ℝ).law = volume.withDensity fun x => ENNReal.ofReal ((Seg.const 0 1 (1 / 2)).val x) from rfl,
    withDensity_apply _ measurableSet_Ioo, setLIntegral_congr_fun (g := fun _ => ENNReal.ofReal (1 / 2)) measurableSet_Ioo
      (fun x hx => by
        show ENNReal.ofReal _ = _
        rw [const_val, if_pos ⟨hu.trans hx.1.le, hx.2.trans_le hv⟩])] at h0
  simp [Real.volume_Ioo] at h0
  linarith

/-- the discrete distribution giving 0 and 2 the probability ½, with the zero piece that `DiscreteDistr` puts in between -/
noncomputable def coin : PF ℝ := [.dirac 0 (1 / 2), .const 0 2 0, .dirac 2 (1 / 2)]

theorem coin_law : PF.law coin = ENNReal.ofReal (1 / 2) • Measure.dirac 0 + ENNReal.ofReal (1 / 2) • Measure.dirac 2 := by
  have h : (Seg.const 0 2 0 : Seg ℝ).law = 0 := by
    show volume.withDensity _ = 0
    rw [show (fun x => ENNReal.ofReal ((Seg.const 0 2 0 : Seg ℝ).val x)) = 0 by
      funext x; rw [const_val]; split_ifs <;> simp]
    simp
  rw [coin, PF.law_cons, PF.law_cons, h, zero_add]
  congr 1
  exact const_law' _ _

theorem coin_cond : Args exPar coin {1} := by
  refine ⟨by norm_num [exPar], by simp [coin], ⟨?_, ?_⟩, ?_, ?_, ?_, apartOne_halves ?_⟩
  · intro s hs
    simp only [coin, List.mem_cons, List.not_mem_nil, or_false] at hs
    rcases hs with rfl | rfl | rfl
    · trivial
    · show (0 : ℝ) < 2; norm_num
    · trivial
  · simp only [coin, List.pairwise_cons, List.mem_cons, List.not_mem_nil, or_false, forall_eq_or_imp, forall_eq, false_imp_iff,
      implies_true, List.Pairwise.nil, and_true]
    refine ⟨⟨⟨extFin_le.2 le_rfl, by intro a m a' m' _ h; cases h⟩, extFin_le.2 (by norm_num), ?_⟩, extFin_le.2 le_rfl,
      by intro a m a' m' h; cases h⟩
    intro a m a' m' h h'
    cases h; cases h'
    norm_num [exPar]
  · intro s hs
    simp only [coin, List.mem_cons, List.not_mem_nil, or_false] at hs
    rcases hs with rfl | rfl | rfl
    · norm_num [Seg.Dens]
    · exact const_dens _ _ le_rfl
    · norm_num [Seg.Dens]
  · rw [coin_law]
    simp only [Measure.add_apply, Measure.smul_apply, measure_univ, smul_eq_mul, mul_one]
    rw [← ENNReal.ofReal_add (by norm_num) (by norm_num)]
    norm_num
  · rintro c rfl a m hm
    simp only [coin, List.mem_cons, List.not_mem_nil, or_false, reduceCtorEq, Seg.dirac.injEq, false_or] at hm
    right
    rcases hm with ⟨rfl, -⟩ | ⟨rfl, -⟩ <;> norm_num [exPar]
  · rintro x (rfl | ⟨s, hs, h⟩)
    · exact ⟨2, by norm_num, by norm_num⟩
    · simp only [coin, List.mem_cons, List.not_mem_nil, or_false] at hs
      have : x = 0 ∨ x = 2 := by
        rcases hs with rfl | rfl | rfl <;> simp only [Seg.lo, Seg.hi, Breaks.fin_inj] at h
        · left; rcases h with h | h <;> exact h.symm
        · rcases h with h | h
          · exact .inl h.symm
          · exact .inr h.symm
        · right; rcases h with h | h <;> exact h.symm
      rcases this with rfl | rfl
      · exact ⟨0, by norm_num, by norm_num⟩
      · exact ⟨4, by norm_num, by norm_num⟩

end Cond
end Pacal
