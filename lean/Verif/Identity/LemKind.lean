import Verif.Identity.Lem
import Verif.Standard.PropsRange

/-!
Lemmas for `Verif.Identity.Props`: the density of each standard distribution, in one statement.
-/

namespace Pacal.Identity
open MeasureTheory ProbabilityTheory Standard

theorem kind_tidy {E : Env} {k : Kind} (hv : k.Valid) {l : PF ℝ} (h : k.build E = some l) (hw : PF.WF E.eps l) : Tidy l := by
  have key : ∀ {ss : List (Seg ℝ)}, PF.addAll E.eps [] ss = some l → ss ≠ [] → (∀ s ∈ ss, s.isDirac = false) →
      (ss.IsChain fun s t => s.hi = t.lo) → Tidy l := fun h h1 h2 h3 => tidy_of h hw h1 h2 h3
  cases k with
  | normal mu sigma =>
    rw [Kind.build, normal] at h
    split_ifs at h
    exact key h (by simp) (by simp [Seg.isDirac]) (by simp [Seg.lo, Seg.hi])
  | uniform a b =>
    rw [Kind.build, uniform] at h
    split_ifs at h
    exact key h (by simp) (by simp [Seg.isDirac]) (by simp)
  | trapezoidal a b c d =>
    obtain ⟨h1, h2, h3, h4⟩ := hv
    rw [Kind.build, trapezoidal] at h
    by_cases g0 : d + c - (b + a) = 0
    · rw [if_pos g0] at h; cases h
    rw [if_neg g0] at h
    dsimp only at h
    by_cases g1 : a < b <;> by_cases g2 : b < c <;> by_cases g3 : c < d <;>
      simp only [g1, g2, g3, if_true, if_false] at h <;> refine key h ?_ ?_ ?_ <;> clear h key hw <;>
      first
      | (simp; done)
      | (simp [Seg.isDirac]; done)
      | (simp [Seg.lo, Seg.hi]; done)
      | (intro _; linarith)
      | (have : b = c := le_antisymm h2 (not_lt.1 g2); simp [Seg.lo, Seg.hi, this])
  | cauchy g c => exact key h (by simp) (by simp [Seg.isDirac]) (by simp [Seg.lo, Seg.hi])
  | chiSquare df =>
    rw [Kind.build, chiSquare] at h
    split_ifs at h <;> exact ofFun_tidy h hw
  | exponential a => exact key h (by simp) (by simp [Seg.isDirac]) (by simp [Seg.lo, Seg.hi])
  | gamma a b =>
    rw [Kind.build, gamma] at h
    split_ifs at h <;> exact key h (by simp) (by simp [Seg.isDirac]) (by simp [Seg.lo, Seg.hi])
  | beta a b =>
    rw [Kind.build, Standard.beta] at h
    split_ifs at h <;> exact key h (by simp) (by simp [Seg.isDirac]) (by simp [Seg.lo, Seg.hi])
  | pareto a b =>
    rw [Kind.build, pareto] at h
    split_ifs at h <;> exact key h (by simp) (by simp [Seg.isDirac]) (by simp [Seg.lo, Seg.hi])
  | levy a b =>
    rw [Kind.build, levy] at h
    split_ifs at h <;> exact key h (by simp) (by simp [Seg.isDirac]) (by simp [Seg.lo, Seg.hi])
  | laplace a b =>
    rw [Kind.build, laplace] at h
    split_ifs at h <;> exact key h (by simp) (by simp [Seg.isDirac]) (by simp [Seg.lo, Seg.hi])
  | studentT a =>
    rw [Kind.build, studentT] at h
    split_ifs at h <;> exact key h (by simp) (by simp [Seg.isDirac]) (by simp [Seg.lo, Seg.hi])
  | semicircle a =>
    rw [Kind.build, semicircle] at h
    split_ifs at h <;> exact key h (by simp) (by simp [Seg.isDirac]) (by simp [Seg.lo, Seg.hi])
  | fDistr a b =>
    rw [Kind.build, fDistr] at h
    split_ifs at h <;> exact key h (by simp) (by simp [Seg.isDirac]) (by simp [Seg.lo, Seg.hi])
  | weibull a b =>
    rw [Kind.build, weibull] at h
    split_ifs at h <;> exact ofFun_tidy h hw
  | gumbel a b =>
    rw [Kind.build, gumbel] at h
    split_ifs at h <;> exact key h (by simp) (by simp [Seg.isDirac]) (by simp [Seg.lo, Seg.hi])
  | frechet a b c =>
    rw [Kind.build, frechet] at h
    split_ifs at h <;> exact key h (by simp) (by simp [Seg.isDirac]) (by simp [Seg.lo, Seg.hi])
  | logLogistic a b =>
    rw [Kind.build, logLogistic] at h
    split_ifs at h <;> exact ofFun_tidy h hw
  | mollifier a =>
    rw [Kind.build, mollifier] at h
    split_ifs at h <;> exact key h (by simp) (by simp [Seg.isDirac]) (by simp [Seg.lo, Seg.hi])

theorem trapezoid_rep {eps : ℝ} (he : 0 ≤ eps) {a b c d : ℝ} (hab : a ≤ b) (hbc : b ≤ c) (hcd : c ≤ d) (had : a < d) :
    Rep eps (trapezoidal eps a b c d) (kindLaw (.trapezoidal a b c d)) := by
  obtain ⟨u, hu, h1, h2⟩ := C46_trapezoidal he hab hbc hcd had
  have hpos : 0 < d + c - (b + a) := by
    rcases lt_or_eq_of_le hbc with h | h <;> linarith
  have hint : Integrable fun x => u * Textbook.trapezoid a b c d x := by
    refine ⟨((measurable_trapezoid a b c d).const_mul u).aestronglyMeasurable, ?_⟩
    rw [hasFiniteIntegral_iff_ofReal (Filter.Eventually.of_forall fun x => mul_nonneg hu.le (trapezoid_nonneg x))]
    have := measure_lt_top (Textbook.law fun x => u * Textbook.trapezoid a b c d x) Set.univ
    rwa [Textbook.law, withDensity_apply _ MeasurableSet.univ, Measure.restrict_univ] at this
  have hone : ∫ x, u * Textbook.trapezoid a b c d x = 1 := by
    rw [integral_eq_lintegral_of_nonneg_ae (Filter.Eventually.of_forall fun x => mul_nonneg hu.le (trapezoid_nonneg x))
      hint.aestronglyMeasurable, ← setLIntegral_univ, ← withDensity_apply _ MeasurableSet.univ]
    have := h2.measure_univ
    rw [Textbook.law] at this
    rw [this, ENNReal.toReal_one]
  rw [integral_const_mul, integral_trapezoid hab hbc hcd] at hone
  have : u = 2 / (d + c - (b + a)) := by
    rw [eq_div_iff hpos.ne']
    linear_combination 2 * hone
  rw [kindLaw, ← this]
  exact h1

theorem kind_rep {E : Env} (he : 0 ≤ E.eps) (hlg : ∀ x, 0 < x → E.lg x = Real.log (Real.Gamma x)) {k : Kind} (hv : k.Valid)
    (hx : Exact k) : Rep E.eps (k.build E) (kindLaw k) := by
  cases k with
  | normal mu sigma => exact (C46_normal he mu hv).1
  | uniform a b => exact C46_uniform he hv
  | trapezoidal a b c d => exact trapezoid_rep he hv.1 hv.2.1 hv.2.2.1 hv.2.2.2
  | cauchy g c => exact (C46_cauchy he c hv).1
  | chiSquare df => exact (C46_chiSquare he hlg hv).1
  | exponential a => exact (C46_exponential he hv).1
  | gamma a b => exact (C46_gamma he hlg hv.1 hv.2).1
  | beta a b => exact (C46_beta he E.mpe hlg hv.1 hv.2).1
  | pareto a b => exact (C46_pareto he hv.1 hv.2).1
  | levy a b => exact (C46_levy he hv b).1.1
  | laplace a b => exact (C46_laplace he hv b).1.1
  | studentT a => exact (C46_studentT he hlg hv).1.1
  | semicircle a => exact (C46_semicircle_partial he hv).1.1
  | fDistr a b => exact (C46_fDistr he hlg hv.1 hv.2).1.1
  | weibull a b => exact (C46_weibull he hv.1 hv.2).1.1
  | gumbel a b => exact hx.elim
  | frechet a b c => exact (C46_frechet he hv.1 hv.2 c).1.1
  | logLogistic a b => exact (C46_logLogistic he hv.1 hv.2).1.1
  | mollifier a => exact hx.elim

end Pacal.Identity
