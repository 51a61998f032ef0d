import Verif.Depend.LemArchLaw
import Mathlib.Analysis.SpecialFunctions.Integrals.Basic

/-!
C80: Kendall's tau of an Archimedean copula.
-/

open MeasureTheory ProbabilityTheory Set

namespace Pacal.Depend

open Pacal.Copula

variable {Ω : Type*} [MeasurableSpace Ω] {P : Measure Ω} [IsProbabilityMeasure P] {X Y : Ω → ℝ}

/-- **C80**: for the provided generators, `tau_c()` is Kendall's tau of any two continuous variables with the copula `ccdf`. -/
theorem C80_tau {g : Gen} (hg : Provided g) {C : ℝ → ℝ → ℝ} (hC : ∀ u v, archCcdf g 2 [u, v] = .ok (C u v)) (h : Joins C P X Y) :
    tauC g.fi (deriv g.fi) = kendall P X Y := by
  have e := ccdf_fun hC
  subst e
  rw [tauC_eq hg.regular, ctau_eq h (rank_density hg.regular h)]

/-- **C80**: the function `cpdf` is a density of the copula: the pair of the ranks of any two continuous variables with the
copula `ccdf` has it. -/
theorem C80_density {g : Gen} (hg : Provided g) {C k : ℝ → ℝ → ℝ} (hC : ∀ u v, archCcdf g 2 [u, v] = .ok (C u v))
    (hk : ∀ u v, archCpdf g 2 [u, v] = .ok (k u v)) (h : Joins C P X Y) :
    HasDensity (onSquare k) P (rank P X) (rank P Y) := by
  have e := ccdf_fun hC
  have e2 := cpdf_fun hk
  subst e e2
  exact rank_density hg.regular h

/-- **C80**: and so the two functions of the copula, `ctau(i, j)` and `tau_c()`, agree. -/
theorem C80_ctau {g : Gen} (hg : Provided g) {o : Obj} {i j : ℕ} (hi : i < o.ms.length) (hj : j < o.ms.length) (hij : i ≠ j)
    {C k : ℝ → ℝ → ℝ} (hC : ∀ u v, archCcdf g 2 [u, v] = .ok (C u v)) (hk : ∀ u v, archCpdf g 2 [u, v] = .ok (k u v))
    (h1 : (o.pair (min i j) (max i j)).ccdf = .ok C) (h2 : (o.pair (min i j) (max i j)).cpdf = .ok k) :
    ctau o i j = .ok (tauC g.fi (deriv g.fi)) := by
  have e := ccdf_fun hC
  have e2 := cpdf_fun hk
  rw [ctau, prepare_ok hi hj]
  simp only [Bind.bind, Except.bind]
  rw [if_neg hij, h1, h2, tauC_eq hg.regular, e, e2]

/-- **C80**: there are variables with the copula, for every provided generator: it is a distribution function on the square. -/
theorem C80_exists {g : Gen} (hg : Provided g) {C : ℝ → ℝ → ℝ} (hC : ∀ u v, archCcdf g 2 [u, v] = .ok (C u v)) :
    ∃ (Q : Measure (ℝ × ℝ)) (_ : IsProbabilityMeasure Q), Joins C Q Prod.fst Prod.snd := by
  have e := ccdf_fun hC
  subst e
  exact arch_joins hg.regular

/-- the hypotheses of these theorems are met: `ccdf` and `cpdf` return for two arguments -/
example : ∃ (C k : ℝ → ℝ → ℝ), (∀ u v, archCcdf (clayton 2) 2 [u, v] = .ok (C u v)) ∧
    (∀ u v, archCpdf (clayton 2) 2 [u, v] = .ok (k u v)) ∧
    ∃ (Q : Measure (ℝ × ℝ)) (_ : IsProbabilityMeasure Q), Joins C Q Prod.fst Prod.snd :=
  ⟨_, _, fun _ _ => archCcdf_ok rfl, fun _ _ => archCpdf_ok rfl,
    C80_exists (Or.inl ⟨2, by norm_num, rfl⟩) fun _ _ => archCcdf_ok rfl⟩

/-- **C80**: `tau_c()` of the copula of Clayton. -/
theorem C80_clayton {theta : ℝ} (h : 0 < theta) : tauC (clayton theta).fi (deriv (clayton theta).fi) = theta / (theta + 2) := by
  have e : ∀ t ∈ Ioo (0 : ℝ) 1, (clayton theta).fi t / deriv (clayton theta).fi t = -(1 / theta) * (t - t ^ (theta + 1)) := by
    intro t ht
    rw [(clayton_fi_deriv h.ne' ht.1).deriv]
    have h1 : t ^ (-theta - 1) * t ^ (theta + 1) = 1 := by
      rw [← Real.rpow_add ht.1]; simp
    have h2 : t ^ (-theta) * t ^ (theta + 1) = t := by
      rw [← Real.rpow_add ht.1]; simp
    have h3 : t ^ (-theta - 1) ≠ 0 := (Real.rpow_pos_of_pos ht.1 _).ne'
    change 1 / theta * (t ^ (-theta) - 1) / _ = _
    rw [div_eq_iff (neg_ne_zero.2 h3)]
    have h4 : t ^ (-theta) = t * t ^ (-theta - 1) := by
      nth_rewrite 2 [← Real.rpow_one t]
      rw [← Real.rpow_add ht.1]; congr 1; ring
    rw [h4]
    linear_combination (1 / theta) * h1
  rw [tauC, integrate, intervalIntegral.integral_of_le zero_le_one, integral_Ioc_eq_integral_Ioo,
    setIntegral_congr_fun measurableSet_Ioo e, ← integral_Ioc_eq_integral_Ioo, ← intervalIntegral.integral_of_le zero_le_one,
    intervalIntegral.integral_const_mul, intervalIntegral.integral_sub intervalIntegral.intervalIntegrable_id
      (intervalIntegral.intervalIntegrable_rpow' (by linarith)), integral_id, integral_rpow (Or.inl (by linarith))]
  rw [Real.one_rpow, Real.zero_rpow (by linarith)]
  field_simp
  ring

/-- **C80**: `tau_c()` of the copula of Gumbel. -/
theorem C80_gumbel {theta : ℝ} (h : 1 ≤ theta) : tauC (gumbel theta).fi (deriv (gumbel theta).fi) = 1 - 1 / theta := by
  have h0 : 0 < theta := by linarith
  have e : ∀ t ∈ Ioo (0 : ℝ) 1, (gumbel theta).fi t / deriv (gumbel theta).fi t = 1 / theta * (t * Real.log t) := by
    intro t ht
    rw [(gumbel_fi_deriv ht.1 ht.2).deriv]
    have hl : 0 < -Real.log t := by
      have := Real.log_neg ht.1 ht.2
      linarith
    have h3 : (-Real.log t) ^ (theta - 1) ≠ 0 := (Real.rpow_pos_of_pos hl _).ne'
    have h4 : (-Real.log t) ^ theta = -Real.log t * (-Real.log t) ^ (theta - 1) := by
      nth_rewrite 2 [← Real.rpow_one (-Real.log t)]
      rw [← Real.rpow_add hl]; congr 1; ring
    change (-Real.log t) ^ theta / _ = _
    rw [h4]
    have := ht.1.ne'
    field_simp
  have hI : ∫ t in (0 : ℝ)..1, t * Real.log t = -(1 / 4) := by
    have hc : ContinuousOn (fun t : ℝ => t ^ 2 / 2 * Real.log t - t ^ 2 / 4) (Icc 0 1) := by
      have h1 : Continuous fun t : ℝ => t / 2 * (t * Real.log t) - t ^ 2 / 4 := by
        have := Real.continuous_mul_log
        fun_prop
      refine h1.continuousOn.congr fun t _ => ?_
      ring
    rw [intervalIntegral.integral_eq_sub_of_hasDerivAt_of_le zero_le_one hc (fun t ht => ?_)
      (Real.continuous_mul_log.intervalIntegrable _ _)]
    · simp
    · have h1 := (((hasDerivAt_id t).pow 2).div_const 2).mul (Real.hasDerivAt_log ht.1.ne')
      have h2 := h1.sub (((hasDerivAt_id t).pow 2).div_const 4)
      refine h2.congr_deriv ?_
      have := ht.1.ne'
      simp only [Pi.pow_apply, id]
      field_simp
      ring
  rw [tauC, integrate, intervalIntegral.integral_of_le zero_le_one, integral_Ioc_eq_integral_Ioo,
    setIntegral_congr_fun measurableSet_Ioo e, ← integral_Ioc_eq_integral_Ioo, ← intervalIntegral.integral_of_le zero_le_one,
    intervalIntegral.integral_const_mul, hI]
  ring

/-- **C80** (finding): `ArchimedeanCopula` with the default generator `log` and marginals: the sum of the logarithms is negative, and
`ccdf` replaces it by 0, so it returns 1 everywhere in the square.  The density `cpdf` is that of independent variables. -/
theorem C80_finding_default {u v : ℝ} (hu : 0 < u ∧ u < 1) (hv : 0 < v ∧ v < 1) :
    archCcdf archDefault 2 [u, v] = .ok 1 ∧ archCpdf archDefault 2 [u, v] = .ok 1 := by
  have hlu := Real.log_neg hu.1 hu.2
  have hlv := Real.log_neg hv.1 hv.2
  constructor
  · rw [archCcdf, if_pos (by simp)]
    have hs : archDefault.sum [u, v] = ((Real.log u + Real.log v : ℝ) : WithTop ℝ) := by
      simp [Gen.sum, archDefault]
    have hlt : ((Real.log u + Real.log v : ℝ) : WithTop ℝ) < 0 := by
      exact_mod_cast add_neg hlu hlv
    simp only [hs, if_pos hlt]
    change Except.ok (Real.exp 0) = _
    rw [Real.exp_zero]
  · rw [archCpdf_ok (by simp)]
    have hf : archDefault.fi = Real.log := rfl
    have hi : archDefault.inv = Real.exp := rfl
    simp only [hf, hi, List.map_cons, List.map_nil, List.sum_cons, List.sum_nil, List.prod_cons, List.prod_nil, Real.deriv_log,
      iteratedDeriv_eq_iterate, Real.iter_deriv_exp, add_zero, mul_one]
    rw [Real.exp_add, Real.exp_log hu.1, Real.exp_log hv.1]
    congr 1
    have := hu.1.ne'
    have := hv.1.ne'
    field_simp

end Pacal.Depend
