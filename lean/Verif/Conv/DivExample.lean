import Verif.Conv.DivDensity
import Verif.Conv.SumExample
import Mathlib.Analysis.SpecialFunctions.Integrals.Basic

/-!
Specification and lemmas for `Verif.Conv.PropsDiv`.
-/

namespace Pacal
namespace Conv
open MeasureTheory Set Transform Breaks

variable {P : Par} {f g : PF ℝ}

/-- the density `2t/3` on `[1, 2]` -/
noncomputable def ramp : PF ℝ := [.fin .none 1 2 fun t => 2 * t / 3]

/-- the constant `4/3`, the value of `ramp` at 2, on `[1, 2]` -/
noncomputable def level : PF ℝ := [.fin .none 1 2 fun _ => 4 / 3]

/-- the constant 2 -/
noncomputable def two : PF ℝ := [.dirac 2 1]

theorem fin_val {a b : ℝ} {F : ℝ → ℝ} (x : ℝ) : (Seg.fin .none a b F).val x = (Ico a b).indicator F x := by
  show (if _ then _ else _) = _
  by_cases h : x ∈ Ico a b
  · rw [indicator_of_mem h, if_pos ⟨rfl, EReal.coe_le_coe_iff.2 h.1, EReal.coe_lt_coe_iff.2 h.2⟩]; rfl
  · rw [indicator_of_notMem h, if_neg fun h' => h ⟨EReal.coe_le_coe_iff.1 h'.2.1, EReal.coe_lt_coe_iff.1 h'.2.2⟩]

theorem fin_dens {a b : ℝ} {F : ℝ → ℝ} (hF : Continuous F) (h0 : ∀ x, a ≤ x → x ≤ b → 0 ≤ F x) : (Seg.fin .none a b F).Dens := by
  refine ⟨.of_forall fun x => ?_, ?_⟩
  · rw [fin_val]
    exact indicator_nonneg (fun x hx => h0 x hx.1 hx.2.le) x
  · simp_rw [fin_val]
    rw [integrable_indicator_iff measurableSet_Ico]
    exact (hF.continuousOn.integrableOn_Icc).mono_set Ico_subset_Icc_self

theorem fin_mass {a b : ℝ} {F : ℝ → ℝ} (hd : (Seg.fin .none a b F).Dens) (hab : a ≤ b) :
    (PF.law [Seg.fin .none a b F]).real univ = ∫ x in a..b, F x := by
  have e : PF.law [Seg.fin .none a b F] = (Seg.fin .none a b F).law := by simp [PF.law]
  rw [e, Seg.law_real rfl hd MeasurableSet.univ, setIntegral_univ, intervalIntegral.integral_of_le hab, ← integral_Ico_eq_integral_Ioc,
    ← integral_indicator measurableSet_Ico]
  simp_rw [fin_val]

theorem ramp_dens : PF.Dens ramp := by
  intro s hs
  obtain rfl := List.mem_singleton.1 hs
  exact fin_dens (by fun_prop) fun x h1 _ => by positivity

theorem level_dens : PF.Dens level := by
  intro s hs
  obtain rfl := List.mem_singleton.1 hs
  exact fin_dens (by fun_prop) fun x h1 _ => by positivity

theorem two_dens : PF.Dens two := by
  intro s hs
  obtain rfl := List.mem_singleton.1 hs
  exact zero_le_one

theorem ramp_mass : (PF.law ramp).real univ = 1 := by
  rw [ramp, fin_mass (ramp_dens _ (by simp [ramp])) (by norm_num), intervalIntegral.integral_div, intervalIntegral.integral_const_mul,
    integral_id]
  norm_num

theorem level_mass : (PF.law level).real univ = 4 / 3 := by
  rw [level, fin_mass (level_dens _ (by simp [level])) (by norm_num), intervalIntegral.integral_const]
  norm_num

theorem two_mass : (PF.law two).real univ = 1 := by
  simp [two, PF.law, Seg.law]

theorem ends_fin {p : Pole} {a b : ℝ} {F : ℝ → ℝ} {x : ℝ} (h : x ∈ PF.ends [Seg.fin p a b F]) : x = a ∨ x = b := by
  obtain ⟨s, hs, h⟩ := h
  obtain rfl := List.mem_singleton.1 hs
  rcases h with h | h
  · exact .inl (EReal.coe_eq_coe_iff.1 h).symm
  · exact .inr (EReal.coe_eq_coe_iff.1 h).symm

theorem ends_dirac {a m : ℝ} {x : ℝ} (h : x ∈ PF.ends [Seg.dirac a m]) : x = a := by
  obtain ⟨s, hs, h⟩ := h
  obtain rfl := List.mem_singleton.1 hs
  rcases h with h | h <;> exact (EReal.coe_eq_coe_iff.1 h).symm

/-- numbers that are multiples of 1/8 in `[-4, 4]` are far apart -/
theorem eighths {e : ℝ} (he : 0 ≤ e) (he' : e < 1 / 32) {S : Set ℝ} (h : ∀ u ∈ S, (∃ k : ℤ, u = k / 8) ∧ |u| ≤ 4) :
    ∀ u ∈ S, ∀ v ∈ S, u ≠ v → e * max 1 |u| < |u - v| := by
  intro u hu v hv hne
  obtain ⟨⟨k, rfl⟩, h1⟩ := h u hu
  obtain ⟨⟨l, rfl⟩, -⟩ := h v hv
  have hkl : k ≠ l := by rintro rfl; exact hne rfl
  have h2 : (1 : ℝ) ≤ |(k : ℝ) - l| := by
    have : 1 ≤ |k - l| := Int.one_le_abs (sub_ne_zero.2 hkl)
    exact_mod_cast this
  have h3 : |(k : ℝ) / 8 - l / 8| = |(k : ℝ) - l| / 8 := by
    rw [← sub_div, abs_div]; norm_num
  have h4 : max 1 |(k : ℝ) / 8| ≤ 4 := max_le (by norm_num) h1
  rw [h3]
  nlinarith

theorem level_marks {x : ℝ} (h : x ∈ level.divMarks) :
    x = 1 ∨ x = 2 ∨ x = 0 ∨ x = -1 ∨ x = -1 / 2 ∨ x = 1 / 2 ∨ x = 1 / 4 := by
  rcases h with (h | h) | ⟨e, h, h'⟩
  · rcases ends_fin h with rfl | rfl <;> simp
  · rcases h with rfl | rfl | rfl <;> simp
  · rcases ends_fin h with rfl | rfl <;> rcases h' with rfl | rfl <;> norm_num

theorem two_marks {x : ℝ} (h : x ∈ two.divMarks) : x = 2 ∨ x = 0 ∨ x = -1 ∨ x = -1 / 2 ∨ x = 1 ∨ x = 1 / 2 := by
  rcases h with (h | h) | ⟨e, h, h'⟩
  · rcases ends_dirac h with rfl; simp
  · rcases h with rfl | rfl | rfl <;> simp
  · rcases ends_dirac h with rfl; rcases h' with rfl | rfl <;> norm_num

theorem level_two (he : 0 ≤ P.eps) (he' : P.eps < 1 / 32) : DivArgs P level two := by
  refine ⟨⟨he, by simp [level], by simp [two], ⟨?_, List.pairwise_singleton ..⟩, ⟨?_, List.pairwise_singleton ..⟩, eighths he he' ?_, ?_⟩, ?_, ?_⟩
  · intro s hs
    obtain rfl := List.mem_singleton.1 hs
    show (1 : ℝ) < 2
    norm_num
  · intro s hs
    obtain rfl := List.mem_singleton.1 hs
    trivial
  · rintro u ⟨p, hp, q, hq, rfl⟩
    have key : ∃ k : ℤ, p / q = k / 8 ∧ |k| ≤ 32 := by
      rcases level_marks hp with rfl | rfl | rfl | rfl | rfl | rfl | rfl <;>
        rcases two_marks hq with rfl | rfl | rfl | rfl | rfl | rfl
      · exact ⟨4, by norm_num, by norm_num⟩
      · exact ⟨0, by norm_num, by norm_num⟩
      · exact ⟨-8, by norm_num, by norm_num⟩
      · exact ⟨-16, by norm_num, by norm_num⟩
      · exact ⟨8, by norm_num, by norm_num⟩
      · exact ⟨16, by norm_num, by norm_num⟩
      · exact ⟨8, by norm_num, by norm_num⟩
      · exact ⟨0, by norm_num, by norm_num⟩
      · exact ⟨-16, by norm_num, by norm_num⟩
      · exact ⟨-32, by norm_num, by norm_num⟩
      · exact ⟨16, by norm_num, by norm_num⟩
      · exact ⟨32, by norm_num, by norm_num⟩
      · exact ⟨0, by norm_num, by norm_num⟩
      · exact ⟨0, by norm_num, by norm_num⟩
      · exact ⟨0, by norm_num, by norm_num⟩
      · exact ⟨0, by norm_num, by norm_num⟩
      · exact ⟨0, by norm_num, by norm_num⟩
      · exact ⟨0, by norm_num, by norm_num⟩
      · exact ⟨-4, by norm_num, by norm_num⟩
      · exact ⟨0, by norm_num, by norm_num⟩
      · exact ⟨8, by norm_num, by norm_num⟩
      · exact ⟨16, by norm_num, by norm_num⟩
      · exact ⟨-8, by norm_num, by norm_num⟩
      · exact ⟨-16, by norm_num, by norm_num⟩
      · exact ⟨-2, by norm_num, by norm_num⟩
      · exact ⟨0, by norm_num, by norm_num⟩
      · exact ⟨4, by norm_num, by norm_num⟩
      · exact ⟨8, by norm_num, by norm_num⟩
      · exact ⟨-4, by norm_num, by norm_num⟩
      · exact ⟨-8, by norm_num, by norm_num⟩
      · exact ⟨2, by norm_num, by norm_num⟩
      · exact ⟨0, by norm_num, by norm_num⟩
      · exact ⟨-4, by norm_num, by norm_num⟩
      · exact ⟨-8, by norm_num, by norm_num⟩
      · exact ⟨4, by norm_num, by norm_num⟩
      · exact ⟨8, by norm_num, by norm_num⟩
      · exact ⟨1, by norm_num, by norm_num⟩
      · exact ⟨0, by norm_num, by norm_num⟩
      · exact ⟨-2, by norm_num, by norm_num⟩
      · exact ⟨-4, by norm_num, by norm_num⟩
      · exact ⟨2, by norm_num, by norm_num⟩
      · exact ⟨4, by norm_num, by norm_num⟩
    obtain ⟨k, hk, hk'⟩ := key
    refine ⟨⟨k, hk⟩, ?_⟩
    rw [hk, abs_div]
    have : |(k : ℝ)| ≤ 32 := by exact_mod_cast hk'
    norm_num
    linarith
  · intro n hn
    have := List.mem_singleton.1 hn
    simp at this
  · intro m hm
    have := List.mem_singleton.1 hm
    simp at this
  · intro _ s hs _
    obtain rfl := List.mem_singleton.1 hs
    exact ⟨4 / 3, fun _ => rfl⟩

/-- quotient of two uniform variables on `[-1, 1]`: the arguments satisfy the hypotheses, with tolerance `1e-14` -/
noncomputable def unif : PF ℝ := [.const (-1) 1 (1 / 2)]

theorem unif_marks {x : ℝ} (h : x ∈ unif.divMarks) : ∃ k : ℤ, (k = 0 ∨ k = 4 ∨ k = -4 ∨ k = 2 ∨ k = -2 ∨ k = 1 ∨ k = -1) ∧ x = k / 4 := by
  have he : ∀ {x}, x ∈ unif.ends → x = -1 ∨ x = 1 := by
    rintro x ⟨s, hs, h⟩
    obtain rfl := List.mem_singleton.1 hs
    rcases h with h | h
    · exact .inl (EReal.coe_eq_coe_iff.1 h).symm
    · exact .inr (EReal.coe_eq_coe_iff.1 h).symm
  rcases h with (h | h) | ⟨e, h, h'⟩
  · rcases he h with rfl | rfl
    · exact ⟨-4, by simp, by norm_num⟩
    · exact ⟨4, by simp, by norm_num⟩
  · rcases h with rfl | rfl | rfl
    · exact ⟨0, by simp, by norm_num⟩
    · exact ⟨-4, by simp, by norm_num⟩
    · exact ⟨-2, by simp, by norm_num⟩
  · rcases he h with rfl | rfl <;> rcases h' with rfl | rfl
    · exact ⟨-2, by simp, by norm_num⟩
    · exact ⟨-1, by simp, by norm_num⟩
    · exact ⟨2, by simp, by norm_num⟩
    · exact ⟨1, by simp, by norm_num⟩

theorem unif_args (he : 0 ≤ P.eps) (he' : P.eps < 1 / 32) : DivArgs P unif unif := by
  have hw : PF.WF P.eps unif :=
    ⟨by intro s hs; obtain rfl := List.mem_singleton.1 hs; show (-1 : ℝ) < 1; norm_num, List.pairwise_singleton ..⟩
  have hn : ∀ {a m : ℝ}, Seg.dirac a m ∉ unif := fun h => by simpa using List.mem_singleton.1 h
  refine ⟨⟨he, by simp [unif], by simp [unif], hw, hw, eighths he he' ?_, fun n h => hn h⟩, fun m h => absurd h hn, ?_⟩
  · rintro u ⟨p, hp, q, hq, rfl⟩
    obtain ⟨k, hk, rfl⟩ := unif_marks hp
    obtain ⟨l, hl, rfl⟩ := unif_marks hq
    have key : ∃ j : ℤ, (k : ℝ) / 4 / (l / 4) = j / 8 ∧ |j| ≤ 32 := by
      rcases hl with rfl | rfl | rfl | rfl | rfl | rfl | rfl
      · exact ⟨0, by norm_num, by norm_num⟩
      · exact ⟨2 * k, by push_cast; ring, by rcases hk with rfl | rfl | rfl | rfl | rfl | rfl | rfl <;> norm_num⟩
      · exact ⟨-2 * k, by push_cast; ring, by rcases hk with rfl | rfl | rfl | rfl | rfl | rfl | rfl <;> norm_num⟩
      · exact ⟨4 * k, by push_cast; ring, by rcases hk with rfl | rfl | rfl | rfl | rfl | rfl | rfl <;> norm_num⟩
      · exact ⟨-4 * k, by push_cast; ring, by rcases hk with rfl | rfl | rfl | rfl | rfl | rfl | rfl <;> norm_num⟩
      · exact ⟨8 * k, by push_cast; ring, by rcases hk with rfl | rfl | rfl | rfl | rfl | rfl | rfl <;> norm_num⟩
      · exact ⟨-8 * k, by push_cast; ring, by rcases hk with rfl | rfl | rfl | rfl | rfl | rfl | rfl <;> norm_num⟩
    obtain ⟨j, hj, hj'⟩ := key
    refine ⟨⟨j, hj⟩, ?_⟩
    rw [hj, abs_div]
    have : |(j : ℝ)| ≤ 32 := by exact_mod_cast hj'
    norm_num
    linarith
  · rintro ⟨b, n, h⟩; exact absurd h hn

end Conv
end Pacal
