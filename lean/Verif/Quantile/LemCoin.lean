import Verif.Quantile.Example

/-! The fair coin: the quantiles of two atoms with nothing in between. -/

namespace Pacal
namespace Quantile
open MeasureTheory Set Transform Filter Roots

variable {q : Quad} {qp : QPar}

/-- two atoms -/
theorem two_facts {a b p r : ℝ} (hab : a < b) (hp : 0 ≤ p) (hr : 0 ≤ r) :
    let l : PF ℝ := [.dirac a p, .dirac b r]
    PF.WF 0 l ∧ PF.Dens l ∧
      ∀ A : Set ℝ, MeasurableSet A → (PF.law l).real A = A.indicator (fun _ => p) a + A.indicator (fun _ => r) b := by
  intro l
  have hw : PF.WF 0 l := wf_pair trivial trivial ⟨Ext.fin_le_fin.2 hab.le, by
    rintro a m a' m' h1 h2
    cases h1; cases h2
    rw [abs_pos]; linarith⟩
  have hd : PF.Dens l := dens_pair hp hr
  refine ⟨hw, hd, fun A hA => ?_⟩
  rw [law_pair hd, Seg.law_real_dirac hp hA, Seg.law_real_dirac hr hA]

/-- the fair coin -/
theorem coin_facts :
    let l : PF ℝ := [.dirac 0 (1 / 2), .dirac 1 (1 / 2)]
    PF.WF 0 l ∧ PF.Dens l ∧ (PF.law l).real univ = 1 ∧ (PF.law l).real {0} = 1 / 2 ∧ (PF.law l).real {1} = 1 / 2 ∧
      (PF.law l).real (Iio 1) = 1 / 2 := by
  intro l
  obtain ⟨hw, hd, hm⟩ := two_facts (a := 0) (b := 1) (p := 1 / 2) (r := 1 / 2) one_pos (by norm_num) (by norm_num)
  refine ⟨hw, hd, ?_, ?_, ?_, ?_⟩
  · rw [hm _ MeasurableSet.univ]; norm_num [indicator]
  · rw [hm _ (measurableSet_singleton _)]; norm_num [indicator]
  · rw [hm _ (measurableSet_singleton _)]; norm_num [indicator]
  · rw [hm _ measurableSet_Iio]; norm_num [indicator]

/-- for a variable with the two values `a < b` every quantile is `b` -/
theorem two_quantile (hq : ExactQ q qp) (S : Finder ℝ) (fuel : ℕ) {a b p r : ℝ} (hab : a < b) (hp : 0 ≤ p) (hr : 0 ≤ r)
    (hpr : p + r = 1) {y : ℝ} (h0 : 0 < y) (h1 : y < 1) :
    quantile (par 0 q qp S fuel) [.dirac a p, .dirac b r] y = .ok (some (b : ℝ)) := by
  obtain ⟨l, hl⟩ : ∃ l : PF ℝ, l = [.dirac a p, .dirac b r] := ⟨_, rfl⟩
  obtain ⟨hw, hd, hm⟩ := two_facts hab hp hr
  have ht := hm _ MeasurableSet.univ
  rw [indicator_univ, indicator_univ, hpr] at ht
  rw [← hl] at hw hd ht ⊢
  obtain ⟨T, hT1, -, u, F, huF, huw, hun, -, hf⟩ := cumint_shape le_rfl hq (by simp [hl]) hw hd
  obtain ⟨B, rfl, s, hs, hB⟩ := hT1 (by simp [hl, Seg.isPInf])
  obtain rfl : Seg.dirac b r = s := by simpa [hl] using hs
  obtain rfl : B = b := by simpa [Seg.hi, Ext.fin, eq_comm] using hB
  rw [show cumSegs q qp 0 l = [] by rw [hl]; rfl, List.nil_append, ht] at huF
  obtain ⟨rfl, rfl⟩ := List.cons.inj huF
  obtain ⟨e, -⟩ := hf B rfl
  have hbr : PF.getBreaks [Seg.minf B (fun _ => 0), .pinf B fun _ => 1] = [.ninf, .fin B, .pinf] := by
    refine getBreaks_eq ?_ fun x => ?_
    · simp only [List.pairwise_cons, List.mem_cons, List.not_mem_nil, or_false, forall_eq_or_imp, forall_eq]
      exact ⟨⟨EReal.bot_lt_coe B, bot_lt_top (α := EReal)⟩, EReal.coe_lt_top B, by simp, by simp⟩
    · rw [mem_getBreaks]; simp [Seg.lo, Seg.hi]; tauto
  have n1 : ¬ Hit y (Seg.minf B fun _ => 0) := by
    simp only [Hit, Seg.valLo, Seg.valHi, lim_const_bot]
    rintro (⟨-, h⟩ | ⟨h, -⟩) <;> linarith
  have n2 : ¬ Hit y (Seg.pinf B fun _ => 1) := by
    simp only [Hit, Seg.valLo, Seg.valHi, lim_const_top]
    rintro (⟨h, -⟩ | ⟨-, h⟩) <;> linarith
  rw [quantile, e]
  show inverseScalar _ _ _ = _
  rw [inverseScalar, loop1, if_neg n1, loop1, if_neg n2, loop1]
  show fixCdf _ _ (loop2 _ _ _ _ none) = _
  refine (congrArg (fixCdf _ _) (loop2_pos _ _ _ _ ⟨h0.le, h1.le⟩)).trans ?_
  rw [hbr]; rfl

/-- for a fair coin with values 0 and 1 every quantile is 1 -/
theorem coin_quantile (hq : ExactQ q qp) (S : Finder ℝ) (fuel : ℕ) {y : ℝ} (h0 : 0 < y) (h1 : y < 1) :
    quantile (par 0 q qp S fuel) [.dirac 0 (1 / 2), .dirac 1 (1 / 2)] y = .ok (some (1 : ℝ)) :=
  two_quantile hq S fuel one_pos (by norm_num) (by norm_num) (by norm_num) h0 h1

end Quantile
end Pacal
