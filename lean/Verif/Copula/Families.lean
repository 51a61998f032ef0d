import Verif.Copula.Lemmas
import Mathlib.Analysis.Calculus.FDeriv.Analytic
import Mathlib.Analysis.SpecialFunctions.Complex.Analytic
import Mathlib.Analysis.SpecialFunctions.ExpDeriv
import Mathlib.Analysis.SpecialFunctions.Log.Deriv
import Mathlib.Analysis.SpecialFunctions.Pow.Deriv
import Mathlib.Analysis.Convex.SpecificFunctions.Basic
import Mathlib.Analysis.Convex.Deriv

/-!
The generators of the Clayton, Gumbel and Frank copulas.
-/

namespace Pacal.Copula
open Set Filter Topology

theorem diff_of_analytic {f : ℝ → ℝ} {s : ℝ} (h : AnalyticAt ℝ f s) (k : ℕ) : DifferentiableAt ℝ (iteratedDeriv k f) s := by
  have : AnalyticAt ℝ (iteratedDeriv k f) s := by
    induction k with
    | zero => simpa using h
    | succ k ih =>
      rw [iteratedDeriv_succ]
      exact ih.deriv
  exact this.differentiableAt

theorem analyticAt_rpow {f : ℝ → ℝ} {s : ℝ} (h : AnalyticAt ℝ f s) (h0 : 0 < f s) (p : ℝ) :
    AnalyticAt ℝ (fun x => f x ^ p) s := by
  have h1 : AnalyticAt ℝ (fun x => Real.exp (Real.log (f x) * p)) s := ((h.log h0).mul analyticAt_const).rexp'
  refine h1.congr ?_
  filter_upwards [h.continuousAt.eventually (lt_mem_nhds h0)] with x hx
  rw [Real.rpow_def_of_pos hx]

/-! ### Clayton -/

theorem clayton_fi_deriv {theta t : ℝ} (h : theta ≠ 0) (ht : 0 < t) :
    HasDerivAt (clayton theta).fi (-t ^ (-theta - 1)) t := by
  have h1 := ((Real.hasDerivAt_rpow_const (p := -theta) (Or.inl ht.ne')).sub_const 1).const_mul (1 / theta)
  refine h1.congr_deriv ?_
  field_simp

theorem clayton_generator {theta : ℝ} (h : 0 < theta) : Generator (clayton theta).fi (clayton theta).inv := by
  have hmono : ∀ s t : ℝ, 0 < s → s < t → t ^ (-theta) < s ^ (-theta) := by
    intro s t hs hst
    rw [Real.rpow_neg hs.le, Real.rpow_neg (hs.trans hst).le]
    exact inv_strictAnti₀ (Real.rpow_pos_of_pos hs _) (Real.rpow_lt_rpow hs.le hst h)
  refine ⟨?_, ?_, ?_, ?_, ?_, ?_⟩
  · simp [clayton]
  · intro s hs t _ hst
    show 1 / theta * (t ^ (-theta) - 1) < 1 / theta * (s ^ (-theta) - 1)
    have := hmono s t hs.1 hst
    have : 0 < 1 / theta := by positivity
    nlinarith
  · refine MonotoneOn.convexOn_of_deriv (convex_Ioc 0 1) ?_ ?_ ?_
    · intro t ht
      exact (clayton_fi_deriv h.ne' ht.1).continuousAt.continuousWithinAt
    · intro t ht
      rw [interior_Ioc] at ht
      exact (clayton_fi_deriv h.ne' ht.1).differentiableAt.differentiableWithinAt
    · rw [interior_Ioc]
      intro s hs t ht hst
      rw [(clayton_fi_deriv h.ne' hs.1).deriv, (clayton_fi_deriv h.ne' ht.1).deriv, neg_le_neg_iff]
      rw [show -theta - 1 = -(theta + 1) by ring, Real.rpow_neg hs.1.le, Real.rpow_neg ht.1.le]
      exact inv_anti₀ (Real.rpow_pos_of_pos hs.1 _) (Real.rpow_le_rpow hs.1.le hst (by linarith))
  · intro t h0 h1
    show (1 + 1 / theta * (t ^ (-theta) - 1) * theta) ^ (-1 / theta) = t
    rw [show 1 + 1 / theta * (t ^ (-theta) - 1) * theta = t ^ (-theta) by field_simp; ring, ← Real.rpow_mul h0.le,
      show -theta * (-1 / theta) = 1 by field_simp, Real.rpow_one]
  · intro s hs
    have h1 : 1 ≤ 1 + s * theta := by nlinarith
    refine ⟨Real.rpow_pos_of_pos (by linarith) _, ?_⟩
    refine Real.rpow_le_one_of_one_le_of_nonpos h1 ?_
    rw [neg_div, neg_nonpos]
    positivity
  · intro s hs
    have h1 : 0 ≤ 1 + s * theta := by nlinarith
    show 1 / theta * (((1 + s * theta) ^ (-1 / theta)) ^ (-theta) - 1) = s
    rw [← Real.rpow_mul h1, show -1 / theta * -theta = 1 by field_simp, Real.rpow_one]
    field_simp
    ring

theorem clayton_regular {theta : ℝ} (h : 0 < theta) : (clayton theta).Regular where
  gen := clayton_generator h
  fi_zero := by simp [clayton, h]
  fi_pos t ht _ := by simp [clayton, ht.ne']
  inv_top := rfl
  inv_coe s := rfl
  diff_fi t ht _ := (clayton_fi_deriv h.ne' ht).differentiableAt
  diff_inv k s hs := by
    refine diff_of_analytic ?_ k
    exact analyticAt_rpow (analyticAt_const.add (analyticAt_id.mul analyticAt_const))
      (show (0:ℝ) < 1 + s * theta by positivity) _

/-! ### Gumbel -/

theorem gumbel_fi_deriv {theta t : ℝ} (ht : 0 < t) (ht1 : t < 1) :
    HasDerivAt (gumbel theta).fi (-(theta * (-Real.log t) ^ (theta - 1) / t)) t := by
  have h0 : 0 < -Real.log t := by
    have := Real.log_neg ht ht1
    linarith
  have h1 : HasDerivAt (fun y => (-Real.log y) ^ theta) (-t⁻¹ * theta * (-Real.log t) ^ (theta - 1)) t :=
    ((Real.hasDerivAt_log ht.ne').neg).rpow_const (p := theta) (Or.inl h0.ne')
  refine h1.congr_deriv ?_
  field_simp

theorem gumbel_generator {theta : ℝ} (h : 1 ≤ theta) : Generator (gumbel theta).fi (gumbel theta).inv := by
  have hpos : 0 < theta := by linarith
  have hlog : ∀ t : ℝ, 0 < t → t ≤ 1 → 0 ≤ -Real.log t := by
    intro t h0 h1
    have := Real.log_nonpos h0.le h1
    linarith
  refine ⟨?_, ?_, ?_, ?_, ?_, ?_⟩
  · simp [gumbel, hpos.ne']
  · intro s hs t ht hst
    refine Real.rpow_lt_rpow (hlog t ht.1 ht.2) ?_ hpos
    have := Real.log_lt_log hs.1 hst
    linarith
  · refine ⟨convex_Ioc 0 1, ?_⟩
    intro x hx y hy a b ha hb hab
    have hm := (convex_Ioc (𝕜 := ℝ) (0 : ℝ) 1) hx hy ha hb hab
    simp only [smul_eq_mul] at hm ⊢
    have hl : -Real.log (a * x + b * y) ≤ a * -Real.log x + b * -Real.log y := by
      have := strictConcaveOn_log_Ioi.concaveOn.2 (x := x) (y := y) hx.1 hy.1 ha hb hab
      simp only [smul_eq_mul] at this
      linarith
    refine (Real.rpow_le_rpow (hlog _ hm.1 hm.2) hl hpos.le).trans ?_
    have := (convexOn_rpow h).2 (x := -Real.log x) (y := -Real.log y) (hlog x hx.1 hx.2) (hlog y hy.1 hy.2) ha hb hab
    simp only [smul_eq_mul] at this
    exact this
  · intro t h0 h1
    show Real.exp (-((-Real.log t) ^ theta) ^ (1 / theta)) = t
    rw [← Real.rpow_mul (hlog t h0 h1), mul_one_div_cancel hpos.ne', Real.rpow_one, neg_neg, Real.exp_log h0]
  · intro s hs
    refine ⟨Real.exp_pos _, ?_⟩
    show Real.exp (-s ^ (1 / theta)) ≤ 1
    rw [Real.exp_le_one_iff, neg_nonpos]
    exact Real.rpow_nonneg hs _
  · intro s hs
    show (-Real.log (Real.exp (-s ^ (1 / theta)))) ^ theta = s
    rw [Real.log_exp, neg_neg, ← Real.rpow_mul hs, one_div_mul_cancel hpos.ne', Real.rpow_one]

theorem gumbel_regular {theta : ℝ} (h : 1 ≤ theta) : (gumbel theta).Regular where
  gen := gumbel_generator h
  fi_zero := by simp [gumbel]
  fi_pos t ht _ := by simp [gumbel, ht.ne']
  inv_top := rfl
  inv_coe s := rfl
  diff_fi t ht ht1 := (gumbel_fi_deriv ht ht1).differentiableAt
  diff_inv k s hs := by
    refine diff_of_analytic ?_ k
    exact (analyticAt_rpow analyticAt_id (show (0:ℝ) < id s from hs) _).neg.rexp'

/-- second derivative of the inverse of the Gumbel generator -/
theorem gumbel_second {theta s : ℝ} (h : 0 < theta) (hs : 0 < s) : iteratedDeriv 2 (gumbel theta).inv s =
    (gumbel theta).inv s * (s ^ (1 / theta - 2) * (-1 + theta + s ^ (1 / theta))) / theta ^ 2 := by
  have h1 : ∀ t : ℝ, 0 < t → HasDerivAt (gumbel theta).inv (Real.exp (-t ^ (1 / theta)) * -(1 / theta * t ^ (1 / theta - 1))) t :=
    fun t ht => ((Real.hasDerivAt_rpow_const (p := 1 / theta) (Or.inl ht.ne')).neg).exp
  rw [iteratedDeriv_succ, iteratedDeriv_one]
  have h2 : deriv (gumbel theta).inv =ᶠ[𝓝 s] fun t => Real.exp (-t ^ (1 / theta)) * -(1 / theta * t ^ (1 / theta - 1)) := by
    filter_upwards [lt_mem_nhds hs] with t ht
    exact (h1 t ht).deriv
  rw [h2.deriv_eq]
  have h3 : HasDerivAt (fun t : ℝ => Real.exp (-t ^ (1 / theta)) * -(1 / theta * t ^ (1 / theta - 1))) _ s :=
    (h1 s hs).mul (((Real.hasDerivAt_rpow_const (p := 1 / theta - 1) (Or.inl hs.ne')).const_mul (1 / theta)).neg)
  rw [h3.deriv]
  have e0 : (gumbel theta).inv s = Real.exp (-s ^ (1 / theta)) := rfl
  rw [e0]
  generalize Real.exp (-s ^ (1 / theta)) = E
  have e1 : s ^ (1 / theta - 1) = s ^ (1 / theta - 2) * s := by
    rw [← Real.rpow_add_one hs.ne']
    congr 1
    ring
  have e2 : s ^ (1 / theta) = s ^ (1 / theta - 2) * s * s := by
    rw [← Real.rpow_add_one hs.ne', ← Real.rpow_add_one hs.ne']
    congr 1
    ring
  have e3 : s ^ (1 / theta - 1 - 1) = s ^ (1 / theta - 2) := by
    congr 1
    ring
  rw [e3, e1, e2]
  generalize s ^ (1 / theta - 2) = R
  field_simp
  ring

/-! ### Frank -/

section Frank
variable {theta : ℝ}

/-- `exp(-t theta) - 1` -/
noncomputable def fh (theta t : ℝ) : ℝ := Real.exp (-t * theta) - 1

theorem fh_zero : fh theta 0 = 0 := by simp [fh]

theorem fh_one : fh theta 1 = Real.exp (-theta) - 1 := by simp [fh]

/-- it has the sign of `-theta` and moves away from 0 -/
theorem fh_sign (h : theta ≠ 0) {s t : ℝ} (hst : s < t) : 0 < theta * (fh theta s - fh theta t) := by
  rcases lt_or_gt_of_ne h with h | h
  · have : Real.exp (-s * theta) < Real.exp (-t * theta) := Real.exp_lt_exp.2 (by nlinarith)
    exact mul_pos_of_neg_of_neg h (by simp only [fh]; linarith)
  · have : Real.exp (-t * theta) < Real.exp (-s * theta) := Real.exp_lt_exp.2 (by nlinarith)
    exact mul_pos h (by simp only [fh]; linarith)

theorem fh_neg (h : theta ≠ 0) {t : ℝ} (ht : 0 < t) : theta * fh theta t < 0 := by
  have := fh_sign h ht
  rw [fh_zero] at this
  linarith

theorem fh_ne (h : theta ≠ 0) {t : ℝ} (ht : 0 < t) : fh theta t ≠ 0 := by
  intro e
  have := fh_neg h ht
  rw [e, mul_zero] at this
  exact lt_irrefl _ this

/-- the ratio in the generator -/
noncomputable def fr (theta t : ℝ) : ℝ := fh theta t / fh theta 1

theorem fr_lt (h : theta ≠ 0) {s t : ℝ} (hst : s < t) : fr theta s < fr theta t := by
  have h1 := fh_sign h hst
  have h2 := fh_neg h one_pos
  have h3 : fr theta t - fr theta s = theta * (fh theta s - fh theta t) / -(theta * fh theta 1) := by
    have := fh_ne h one_pos
    rw [fr, fr]
    field_simp
    ring
  have : 0 < fr theta t - fr theta s := by
    rw [h3]
    exact div_pos h1 (by linarith)
  linarith

theorem fr_lt_iff (h : theta ≠ 0) {s t : ℝ} : fr theta s < fr theta t ↔ s < t :=
  ⟨fun hh => by
    by_contra hc
    rcases eq_or_lt_of_le (not_lt.1 hc) with e | e
    · rw [e] at hh
      exact lt_irrefl _ hh
    · exact lt_asymm hh (fr_lt h e), fr_lt h⟩

theorem fr_zero : fr theta 0 = 0 := by simp [fr, fh_zero]

theorem fr_one (h : theta ≠ 0) : fr theta 1 = 1 := div_self (fh_ne h one_pos)

theorem fr_pos (h : theta ≠ 0) {t : ℝ} (ht : 0 < t) : 0 < fr theta t := by
  have := fr_lt h ht
  rwa [fr_zero] at this

theorem frank_fi (t : ℝ) : (frank theta).fi t = -Real.log (fr theta t) := by
  rw [fr, fh_one]
  rfl

theorem exp_fi (h : theta ≠ 0) {t : ℝ} (ht : 0 < t) : Real.exp (-(frank theta).fi t) = fr theta t := by
  rw [frank_fi, neg_neg, Real.exp_log (fr_pos h ht)]

theorem frank_arg (s : ℝ) : Real.exp (-s - theta) - Real.exp (-s) + 1 = Real.exp (-s) * fh theta 1 + 1 := by
  rw [fh_one, sub_eq_add_neg (-s), Real.exp_add]
  ring

theorem frank_inv (s : ℝ) : (frank theta).inv s = -Real.log (Real.exp (-s) * fh theta 1 + 1) / theta := by
  rw [← frank_arg]
  rfl

/-- the argument of the logarithm lies between `exp(-theta)` and 1 -/
theorem frank_arg_pos {q : ℝ} (h0 : 0 ≤ q) (h1 : q ≤ 1) : 0 < q * fh theta 1 + 1 := by
  rw [fh_one]
  have := Real.exp_pos (-theta)
  rcases eq_or_lt_of_le h1 with rfl | h1
  · linarith
  · nlinarith [mul_nonneg h0 this.le]

theorem exp_neg_le_one {s : ℝ} (hs : 0 ≤ s) : Real.exp (-s) ≤ 1 := by
  rw [Real.exp_le_one_iff]
  linarith

theorem frank_ratio (h : theta ≠ 0) {s : ℝ} (hs : 0 ≤ s) : fr theta ((frank theta).inv s) = Real.exp (-s) := by
  have h1 := frank_arg_pos (theta := theta) (Real.exp_pos (-s)).le (exp_neg_le_one hs)
  have h2 : fh theta ((frank theta).inv s) = Real.exp (-s) * fh theta 1 := by
    rw [frank_inv, fh, show -(-Real.log (Real.exp (-s) * fh theta 1 + 1) / theta) * theta
      = Real.log (Real.exp (-s) * fh theta 1 + 1) by field_simp, Real.exp_log h1]
    ring
  rw [fr, h2, mul_div_assoc, div_self (fh_ne h one_pos), mul_one]

theorem frank_fi_deriv (h : theta ≠ 0) {t : ℝ} (ht : 0 < t) :
    HasDerivAt (frank theta).fi (theta + theta / fh theta t) t := by
  have h1 : HasDerivAt (fun t => fh theta t) (Real.exp (-t * theta) * (-1 * theta)) t :=
    ((((hasDerivAt_id t).neg).mul_const theta).exp).sub_const 1
  have h2 := ((h1.div_const (fh theta 1)).log (fr_pos h ht).ne').neg
  have h3 : (frank theta).fi = fun t => -Real.log (fr theta t) := funext frank_fi
  rw [h3]
  refine h2.congr_deriv ?_
  have e : Real.exp (-t * theta) = fh theta t + 1 := by rw [fh]; ring
  have n1 := fh_ne h one_pos
  have n2 := fh_ne h ht
  rw [e]
  field_simp

theorem frank_generator (h : theta ≠ 0) : Generator (frank theta).fi (frank theta).inv := by
  refine ⟨?_, ?_, ?_, ?_, ?_, ?_⟩
  · rw [frank_fi, fr_one h, Real.log_one, neg_zero]
  · intro s hs t ht hst
    rw [frank_fi, frank_fi, neg_lt_neg_iff]
    exact Real.log_lt_log (fr_pos h hs.1) (fr_lt h hst)
  · refine MonotoneOn.convexOn_of_deriv (convex_Ioc 0 1) ?_ ?_ ?_
    · intro t ht
      exact (frank_fi_deriv h ht.1).continuousAt.continuousWithinAt
    · intro t ht
      rw [interior_Ioc] at ht
      exact (frank_fi_deriv h ht.1).differentiableAt.differentiableWithinAt
    · rw [interior_Ioc]
      intro s hs t ht hst
      rw [(frank_fi_deriv h hs.1).deriv, (frank_fi_deriv h ht.1).deriv]
      rcases eq_or_lt_of_le hst with rfl | hst
      · exact le_refl _
      · have h1 := fh_sign h hst
        have h2 := fh_neg h hs.1
        have h3 := fh_neg h ht.1
        have h4 : theta / fh theta t - theta / fh theta s = theta * (fh theta s - fh theta t) * theta ^ 2 /
            ((theta * fh theta s) * (theta * fh theta t)) := by
          have := fh_ne h hs.1
          have := fh_ne h ht.1
          field_simp
        have : 0 ≤ theta / fh theta t - theta / fh theta s := by
          rw [h4]
          exact div_nonneg (mul_nonneg h1.le (sq_nonneg _)) (mul_pos_of_neg_of_neg h2 h3).le
        linarith
  · intro t h0 h1
    rw [frank_inv, exp_fi h h0, fr, div_mul_cancel₀ _ (fh_ne h one_pos), fh, sub_add_cancel, Real.log_exp]
    field_simp
  · intro s hs
    have h1 := frank_ratio h hs
    constructor
    · rw [← fr_lt_iff h, h1, fr_zero]
      exact Real.exp_pos _
    · rw [← not_lt, ← fr_lt_iff h, h1, fr_one h, not_lt]
      exact exp_neg_le_one hs
  · intro s hs
    rw [frank_fi, frank_ratio h hs, Real.log_exp, neg_neg]

theorem frank_regular (h : theta ≠ 0) : (frank theta).Regular where
  gen := frank_generator h
  fi_zero := by simp [frank]
  fi_pos t ht _ := by simp [frank, ht.ne']
  inv_top := by simp [frank]
  inv_coe s := rfl
  diff_fi t ht _ := (frank_fi_deriv h ht).differentiableAt
  diff_inv k s hs := by
    refine diff_of_analytic ?_ k
    have h1 : (frank theta).inv = fun s => -Real.log (Real.exp (-s) * fh theta 1 + 1) / theta := funext frank_inv
    rw [h1]
    have h2 : AnalyticAt ℝ (fun s : ℝ => Real.exp (-s) * fh theta 1 + 1) s :=
      ((analyticAt_id.neg.rexp').mul analyticAt_const).add analyticAt_const
    exact ((h2.log (frank_arg_pos (Real.exp_pos (-s)).le (exp_neg_le_one hs.le))).neg).div_const

/-- second derivative of the inverse of the Frank generator -/
theorem frank_second (h : theta ≠ 0) {s : ℝ} (hs : 0 < s) : iteratedDeriv 2 (frank theta).inv s =
    -(Real.exp (-s) * fh theta 1) / (theta * (Real.exp (-s) * fh theta 1 + 1) ^ 2) := by
  have h0 : ∀ t : ℝ, HasDerivAt (fun t : ℝ => Real.exp (-t) * fh theta 1) (-(Real.exp (-t) * fh theta 1)) t := by
    intro t
    refine (((hasDerivAt_id t).neg.exp).mul_const (fh theta 1)).congr_deriv ?_
    simp
  have hp : ∀ t : ℝ, 0 < t → 0 < Real.exp (-t) * fh theta 1 + 1 := fun t ht =>
    frank_arg_pos (Real.exp_pos (-t)).le (exp_neg_le_one ht.le)
  have h1 : ∀ t : ℝ, 0 < t → HasDerivAt (frank theta).inv
      (-(-(Real.exp (-t) * fh theta 1) / (Real.exp (-t) * fh theta 1 + 1)) / theta) t := by
    intro t ht
    have e : (frank theta).inv = fun s => -Real.log (Real.exp (-s) * fh theta 1 + 1) / theta := funext frank_inv
    rw [e]
    exact ((((h0 t).add_const 1).log (hp t ht).ne').neg).div_const theta
  rw [iteratedDeriv_succ, iteratedDeriv_one]
  have h2 : deriv (frank theta).inv =ᶠ[𝓝 s] fun t =>
      -(-(Real.exp (-t) * fh theta 1) / (Real.exp (-t) * fh theta 1 + 1)) / theta := by
    filter_upwards [lt_mem_nhds hs] with t ht
    exact (h1 t ht).deriv
  rw [h2.deriv_eq]
  have h3 := ((((h0 s).neg).div ((h0 s).add_const 1) (hp s hs).ne').neg).div_const theta
  have h4 : HasDerivAt (fun t => -(-(Real.exp (-t) * fh theta 1) / (Real.exp (-t) * fh theta 1 + 1)) / theta) _ s := h3
  rw [h4.deriv]
  have := (hp s hs).ne'
  simp only [Pi.neg_apply]
  field_simp
  ring

end Frank

end Pacal.Copula
