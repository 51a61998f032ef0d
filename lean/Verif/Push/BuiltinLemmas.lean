import Verif.Push.Comp
import Mathlib.Analysis.SpecialFunctions.Sigmoid
import Mathlib.Analysis.SpecialFunctions.Artanh
import Mathlib.Analysis.SpecialFunctions.Trigonometric.InverseDeriv
import Mathlib.Analysis.SpecialFunctions.Trigonometric.ArctanDeriv
import Mathlib.Analysis.SpecialFunctions.Trigonometric.DerivHyp
import Mathlib.Analysis.SpecialFunctions.Log.Deriv

/-! Inverses, derivatives and monotonicity of the built-in functions. -/

namespace Pacal
open MeasureTheory Set Real

theorem ext_fin_inj {x y : ℝ} (h : Ext.fin x = Ext.fin y) : x = y := by simpa [Ext.fin] using h

theorem inv_exp : InverseOn Real.exp expInv expInvDeriv univ (Ioi 0) := by
  refine ⟨fun x _ => ⟨exp_pos x, Real.log_exp x⟩, fun y hy => ⟨trivial, Real.exp_log hy, ?_⟩⟩
  have hy : 0 < y := hy
  exact (Real.hasDerivAt_log hy.ne').congr_deriv (by rw [expInvDeriv, abs_of_pos hy, one_div])

theorem inv_log : InverseOn Real.log logInv logInvDeriv (Ioi 0) univ :=
  ⟨fun _ hx => ⟨trivial, Real.exp_log hx⟩, fun y _ => ⟨exp_pos y, Real.log_exp y, Real.hasDerivAt_exp y⟩⟩

theorem guard_deriv {f f' : ℝ → ℝ} {a b y : ℝ} (h1 : a < y) (h2 : y < b) (hf : HasDerivAt f (f' y) y) :
    HasDerivAt (fun x => if x ≤ a ∨ x ≥ b then 0 else f x) (if y ≤ a ∨ y ≥ b then 0 else f' y) y := by
  rw [if_neg (by rintro (h | h) <;> linarith)]
  refine hf.congr_of_eventuallyEq ?_
  filter_upwards [Ioo_mem_nhds h1 h2] with x hx
  rw [if_neg (by rintro (h | h) <;> linarith [hx.1, hx.2])]

theorem inv_atan : InverseOn arctan atanInv atanInvDeriv univ (Ioo (-(π / 2)) (π / 2)) := by
  have e : ∀ y ∈ Ioo (-(π / 2)) (π / 2), atanInv y = tan y := by
    intro y hy
    rw [atanInv, if_neg (by rintro (h | h) <;> linarith [hy.1, hy.2])]
  refine ⟨fun x _ => ⟨⟨neg_pi_div_two_lt_arctan x, arctan_lt_pi_div_two x⟩, ?_⟩, fun y hy => ⟨trivial, ?_, ?_⟩⟩
  · rw [e _ ⟨neg_pi_div_two_lt_arctan x, arctan_lt_pi_div_two x⟩, tan_arctan]
  · rw [e y hy, arctan_tan hy.1 hy.2]
  · have hc : cos y ≠ 0 := (cos_pos_of_mem_Ioo hy).ne'
    have := guard_deriv (f := tan) (f' := fun y => 1 + tan y ^ 2) (a := -π / 2) (b := π / 2) (y := y) (by linarith [hy.1]) hy.2
      ((hasDerivAt_tan hc).congr_deriv (by
        rw [tan_eq_sin_div_cos, div_pow, one_div, eq_comm, ← div_self (pow_ne_zero 2 hc), ← add_div, cos_sq_add_sin_sq, one_div]))
    exact this

theorem inv_tanh : InverseOn tanh tanhInv tanhInvDeriv univ (Ioo (-1) 1) := by
  have e : ∀ y ∈ Ioo (-1 : ℝ) 1, tanhInv y = artanh y := by
    intro y hy
    rw [tanhInv, if_neg (by rintro (h | h) <;> linarith [hy.1, hy.2]), artanh_eq_half_log ⟨hy.1.le, hy.2.le⟩]
    norm_num
  have hr : ∀ x, tanh x ∈ Ioo (-1 : ℝ) 1 := fun x => tanh_bijOn.mapsTo (mem_univ x)
  refine ⟨fun x _ => ⟨hr x, by rw [e _ (hr x), artanh_tanh]⟩, fun y hy => ⟨trivial, by rw [e y hy, tanh_artanh hy], ?_⟩⟩
  have h1 : (1 : ℝ) + y ≠ 0 := by linarith [hy.1]
  have h2 : (1 : ℝ) - y ≠ 0 := by linarith [hy.2]
  have h3 : (1 : ℝ) - y ^ 2 ≠ 0 := by
    have : (1 : ℝ) - y ^ 2 = (1 - y) * (1 + y) := by ring
    rw [this]; exact mul_ne_zero h2 h1
  refine guard_deriv (f := fun x => 0.5 * Real.log ((1 + x) / (1 - x))) (f' := fun y => 1 / (1 - y ^ 2)) hy.1 hy.2 ?_
  have hd : HasDerivAt (fun x : ℝ => (1 + x) / (1 - x)) ((1 * (1 - y) - (1 + y) * (-1)) / (1 - y) ^ 2) y :=
    ((hasDerivAt_id' y).const_add 1).div ((hasDerivAt_id' y).const_sub 1) h2
  refine ((hd.log (div_ne_zero h1 h2)).const_mul 0.5).congr_deriv ?_
  field_simp
  ring

theorem sigmoidFn_eq (x : ℝ) : sigmoidFn x = Real.sigmoid x := by
  have h := exp_pos x
  rw [sigmoidFn, Real.sigmoid_def]
  split_ifs
  · rw [one_div]
  · rw [Real.exp_neg]; field_simp

theorem inv_sigmoid : InverseOn sigmoidFn sigmoidInv sigmoidInvDeriv univ (Ioo 0 1) := by
  have e : ∀ y ∈ Ioo (0 : ℝ) 1, sigmoidInv y = Real.log (y / (1 - y)) := by
    intro y hy
    rw [sigmoidInv, if_neg (by rintro (h | h) <;> linarith [hy.1, hy.2])]
  have hr : ∀ x, sigmoidFn x ∈ Ioo (0 : ℝ) 1 := fun x => by
    rw [sigmoidFn_eq]; exact ⟨Real.sigmoid_pos x, Real.sigmoid_lt_one x⟩
  refine ⟨fun x _ => ⟨hr x, ?_⟩, fun y hy => ⟨trivial, ?_, ?_⟩⟩
  · rw [e _ (hr x), sigmoidFn_eq, ← Real.sigmoid_neg, ← Real.sigmoid_mul_rexp_neg]
    have h := Real.sigmoid_pos x
    rw [← div_div, div_self h.ne', one_div, ← Real.exp_neg, neg_neg, Real.log_exp]
  · have h1 : 0 < 1 - y := by linarith [hy.2]
    rw [e y hy, sigmoidFn_eq, Real.sigmoid_def, Real.exp_neg, Real.exp_log (div_pos hy.1 h1)]
    have := hy.1.ne'
    field_simp
    ring
  · have h1 : (1 : ℝ) - y ≠ 0 := by linarith [hy.2]
    have h0 : y ≠ 0 := hy.1.ne'
    refine guard_deriv (f := fun x => Real.log (x / (1 - x))) (f' := fun y => 1 / (y * (1 - y))) (by linarith [hy.1]) hy.2 ?_
    have hd : HasDerivAt (fun x : ℝ => x / (1 - x)) ((1 * (1 - y) - y * (-1)) / (1 - y) ^ 2) y :=
      (hasDerivAt_id' y).div ((hasDerivAt_id' y).const_sub 1) h1
    refine (hd.log (div_ne_zero h0 h1)).congr_deriv ?_
    field_simp
    ring

theorem inv_tan : InverseOn tan tanInv tanInvDeriv (Ioo (-(π / 2)) (π / 2)) univ :=
  ⟨fun x hx => ⟨trivial, arctan_tan hx.1 hx.2⟩, fun y _ =>
    ⟨⟨neg_pi_div_two_lt_arctan y, arctan_lt_pi_div_two y⟩, tan_arctan y, by
      have := hasDerivAt_arctan y
      exact this⟩⟩

theorem rpow_half {y : ℝ} (hy : y ∈ Ioo (-1 : ℝ) 1) : (1 - y ^ 2) ^ (-0.5 : ℝ) = 1 / √(1 - y ^ 2) := by
  have : 0 < 1 - y ^ 2 := by nlinarith [hy.1, hy.2]
  rw [Real.sqrt_eq_rpow, show (-0.5 : ℝ) = -(1 / 2) by norm_num, Real.rpow_neg this.le]; exact inv_eq_one_div _

theorem inv_cos1 : InverseOn cos arccos arccosDer1 (Ioo 0 π) (Ioo (-1) 1) := by
  refine ⟨fun x hx => ⟨⟨?_, ?_⟩, arccos_cos hx.1.le hx.2.le⟩, fun y hy => ⟨⟨?_, ?_⟩, cos_arccos hy.1.le hy.2.le, ?_⟩⟩
  · have := strictAntiOn_cos (show x ∈ Icc 0 π from ⟨hx.1.le, hx.2.le⟩) (show π ∈ Icc 0 π from ⟨pi_pos.le, le_rfl⟩) hx.2
    rwa [cos_pi] at this
  · have := strictAntiOn_cos (show (0 : ℝ) ∈ Icc 0 π from ⟨le_rfl, pi_pos.le⟩) (show x ∈ Icc 0 π from ⟨hx.1.le, hx.2.le⟩) hx.1
    rwa [cos_zero] at this
  · exact arccos_pos.2 hy.2
  · refine lt_of_le_of_ne (arccos_le_pi y) fun h => ?_
    rw [arccos_eq_pi] at h; exact absurd hy.1 (not_lt.2 h)
  · exact (hasDerivAt_arccos hy.1.ne' hy.2.ne).congr_deriv (by rw [arccosDer1, rpow_half hy])

theorem inv_cos2 : InverseOn cos twopiMArccos arccosDer2 (Ioo π (2 * π)) (Ioo (-1) 1) := by
  have hc : ∀ x, cos (2 * π - x) = cos x := fun x => cos_two_pi_sub x
  refine ⟨fun x hx => ?_, fun y hy => ?_⟩
  · have h := inv_cos1.1 (2 * π - x) ⟨by linarith [hx.2], by linarith [hx.1]⟩
    rw [hc] at h
    exact ⟨h.1, by rw [twopiMArccos, h.2]; ring⟩
  · obtain ⟨h1, h2, h3⟩ := inv_cos1.2 y hy
    refine ⟨⟨?_, ?_⟩, by rw [twopiMArccos, hc, h2], ?_⟩
    · rw [twopiMArccos]; linarith [h1.2]
    · rw [twopiMArccos]; linarith [h1.1]
    · exact (h3.const_sub (2 * π)).congr_deriv (by rw [arccosDer1, arccosDer2, neg_neg])

theorem inv_sin1 : InverseOn sin arcsin arcsinDer1 (Ioo (-(π / 2)) (π / 2)) (Ioo (-1) 1) := by
  refine ⟨fun x hx => ⟨⟨?_, ?_⟩, arcsin_sin hx.1.le hx.2.le⟩, fun y hy => ⟨⟨?_, ?_⟩, sin_arcsin hy.1.le hy.2.le, ?_⟩⟩
  · have := strictMonoOn_sin (show -(π / 2) ∈ Icc (-(π / 2)) (π / 2) from ⟨le_rfl, by linarith [pi_pos]⟩)
      (show x ∈ Icc (-(π / 2)) (π / 2) from ⟨hx.1.le, hx.2.le⟩) hx.1
    rwa [sin_neg, sin_pi_div_two] at this
  · have := strictMonoOn_sin (show x ∈ Icc (-(π / 2)) (π / 2) from ⟨hx.1.le, hx.2.le⟩)
      (show π / 2 ∈ Icc (-(π / 2)) (π / 2) from ⟨by linarith [pi_pos], le_rfl⟩) hx.2
    rwa [sin_pi_div_two] at this
  · exact neg_pi_div_two_lt_arcsin.2 hy.1
  · exact arcsin_lt_pi_div_two.2 hy.2
  · exact (hasDerivAt_arcsin hy.1.ne' hy.2.ne).congr_deriv (by rw [arcsinDer1, rpow_half hy])

/-! ### extended functions -/

@[simp] theorem extMap_fin (g : ℝ → ℝ) (vlo vhi : Ext ℝ) (x : ℝ) : extMap g vlo vhi (.fin x) = .fin (g x) := rfl
@[simp] theorem extMap_ninf (g : ℝ → ℝ) (vlo vhi : Ext ℝ) : extMap g vlo vhi .ninf = vlo := rfl
@[simp] theorem extMap_pinf (g : ℝ → ℝ) (vlo vhi : Ext ℝ) : extMap g vlo vhi .pinf = vhi := rfl

theorem extMap_strictMono {g : ℝ → ℝ} {vlo vhi : Ext ℝ} (hg : StrictMono g) (h1 : ∀ x, vlo < .fin (g x))
    (h2 : ∀ x, .fin (g x) < vhi) : StrictMono (extMap g vlo vhi) := by
  intro e e' h
  rcases ext_trich e with rfl | ⟨a, rfl⟩ | rfl <;> rcases ext_trich e' with rfl | ⟨b, rfl⟩ | rfl
  · exact absurd h (lt_irrefl _)
  · exact h1 b
  · exact (h1 0).trans (h2 0)
  · exact absurd h (not_lt_ninf _)
  · exact extFin_lt.2 (hg (extFin_lt.1 h))
  · exact h2 a
  · exact absurd h (not_pinf_lt _)
  · exact absurd h (not_pinf_lt _)
  · exact absurd h (lt_irrefl _)

/-- a strictly increasing function on the whole line -/
theorem MonoPair.line {g h h' : ℝ → ℝ} {vlo vhi : Ext ℝ} (hg : StrictMono g) (hd : Differentiable ℝ g)
    (h1 : ∀ x, vlo < .fin (g x)) (h2 : ∀ x, .fin (g x) < vhi)
    (hi : InverseOn g h h' univ {y | vlo < .fin y ∧ .fin y < vhi}) : MonoPair .ninf .pinf (extMap g vlo vhi) g h h' where
  meas := hd.continuous.measurable
  mono := .inl ((extMap_strictMono hg h1 h2).strictMonoOn _)
  real x y _ _ e := ext_fin_inj e
  diff x _ _ := hd x
  onto y hy := by
    have hy : vlo < .fin y ∧ .fin y < vhi := by
      rcases hy with hy | hy
      · exact hy
      · exact absurd (hy.1.trans hy.2) (not_lt.2 ((h1 0).trans (h2 0)).le)
    exact ⟨h y, ninf_lt_extFin _, extFin_lt_pinf _, (hi.2 y hy).2.1⟩
  left x _ _ := (hi.1 x trivial).2
  deriv x _ _ := by
    have := hi.1 x trivial
    exact (hi.2 _ this.1).2.2

theorem mono_exp : MonoPair .ninf .pinf expExt Real.exp expInv expInvDeriv := by
  refine MonoPair.line Real.exp_strictMono Real.differentiable_exp (fun x => extFin_lt.2 (exp_pos x)) (fun x => extFin_lt_pinf _) ?_
  have := inv_exp
  rwa [show Ioi (0 : ℝ) = {y | Ext.fin 0 < .fin y ∧ Ext.fin y < .pinf} by
    ext y; simp only [mem_Ioi, mem_ofPred_eq, extFin_lt, extFin_lt_pinf, and_true]] at this

theorem mono_atan : MonoPair .ninf .pinf atanExt arctan atanInv atanInvDeriv := by
  refine MonoPair.line arctan_strictMono differentiable_arctan (fun x => extFin_lt.2 (neg_pi_div_two_lt_arctan x))
    (fun x => extFin_lt.2 (arctan_lt_pi_div_two x)) ?_
  have := inv_atan
  rwa [show Ioo (-(π / 2)) (π / 2) = {y | Ext.fin (-(π / 2)) < .fin y ∧ Ext.fin y < .fin (π / 2)} by
    ext y; simp only [mem_Ioo, mem_ofPred_eq, extFin_lt]] at this

theorem mono_tanh : MonoPair .ninf .pinf tanhExt tanh tanhInv tanhInvDeriv := by
  have hr : ∀ x, tanh x ∈ Ioo (-1 : ℝ) 1 := fun x => tanh_bijOn.mapsTo (mem_univ x)
  have hm : StrictMono tanh := by
    intro x y hxy
    by_contra hc
    have hc := not_lt.1 hc
    have := artanh_le_artanh (hr y).1 (hr x).2 hc
    rw [artanh_tanh, artanh_tanh] at this
    linarith
  have hdiff : Differentiable ℝ tanh := by
    have e : tanh = fun x => sinh x / cosh x := funext tanh_eq_sinh_div_cosh
    rw [e]
    exact differentiable_sinh.div differentiable_cosh fun x => (cosh_pos x).ne'
  refine MonoPair.line hm hdiff (fun x => extFin_lt.2 (hr x).1) (fun x => extFin_lt.2 (hr x).2) ?_
  have := inv_tanh
  rwa [show Ioo (-1 : ℝ) 1 = {y | Ext.fin (-1) < .fin y ∧ Ext.fin y < .fin 1} by
    ext y; simp only [mem_Ioo, mem_ofPred_eq, extFin_lt]] at this

theorem mono_sigmoid : MonoPair .ninf .pinf sigmoidExt sigmoidFn sigmoidInv sigmoidInvDeriv := by
  have e : sigmoidFn = Real.sigmoid := funext sigmoidFn_eq
  refine MonoPair.line (by rw [e]; exact Real.sigmoid_strictMono) (by rw [e]; exact differentiable_sigmoid)
    (fun x => extFin_lt.2 (inv_sigmoid.1 x trivial).1.1) (fun x => extFin_lt.2 (inv_sigmoid.1 x trivial).1.2) ?_
  have := inv_sigmoid
  rwa [show Ioo (0 : ℝ) 1 = {y | Ext.fin 0 < .fin y ∧ Ext.fin y < .fin 1} by
    ext y; simp only [mem_Ioo, mem_ofPred_eq, extFin_lt]] at this

theorem logExt_pos {x : ℝ} (hx : 0 < x) : logExt (.fin x) = .fin (Real.log x) := if_neg (not_le.2 hx)
theorem logExt_zero : logExt (.fin 0) = .ninf := if_pos le_rfl
theorem logExt_pinf : logExt .pinf = .pinf := rfl

theorem mono_log : MonoPair (.fin 0) .pinf logExt Real.log logInv logInvDeriv where
  meas := Real.measurable_log
  mono := by
    left
    rintro e ⟨he, -⟩ e' ⟨he', -⟩ h
    rcases ext_trich e with rfl | ⟨a, rfl⟩ | rfl
    · exact absurd he (not_le_ninf _)
    · have he := extFin_le.1 he
      rcases ext_trich e' with rfl | ⟨b, rfl⟩ | rfl
      · exact absurd h (not_lt_ninf _)
      · have h := extFin_lt.1 h
        rw [logExt_pos (he.trans_lt h)]
        rcases he.eq_or_lt with rfl | he
        · rw [logExt_zero]; exact ninf_lt_extFin _
        · rw [logExt_pos he]; exact extFin_lt.2 (Real.log_lt_log he h)
      · rw [logExt_pinf]
        rcases he.eq_or_lt with rfl | he
        · rw [logExt_zero]; exact (ninf_lt_extFin 0).trans (extFin_lt_pinf 0)
        · rw [logExt_pos he]; exact extFin_lt_pinf _
    · exact absurd h (not_pinf_lt _)
  real x y h1 _ e := by
    rcases (extFin_le.1 h1).eq_or_lt with rfl | h
    · rw [logExt_zero] at e; cases e
    · rw [logExt_pos h] at e; exact ext_fin_inj e
  diff x h1 _ := Real.differentiableAt_log (extFin_lt.1 h1).ne'
  onto y _ := ⟨Real.exp y, extFin_lt.2 (exp_pos y), extFin_lt_pinf _, Real.log_exp y⟩
  left x h1 _ := Real.exp_log (extFin_lt.1 h1)
  deriv x _ _ := Real.hasDerivAt_exp _

/-- a strictly monotone function on a bounded interval -/
theorem MonoPair.segment {g h h' : ℝ → ℝ} {vlo vhi : Ext ℝ} {a b : ℝ} {R : Set ℝ}
    (hg : StrictMonoOn g (Icc a b) ∨ StrictAntiOn g (Icc a b)) (hm : Measurable g) (hd : ∀ x ∈ Ioo a b, DifferentiableAt ℝ g x)
    (hR : ∀ y, (g a < y ∧ y < g b) ∨ (g b < y ∧ y < g a) → y ∈ R)
    (hi : InverseOn g h h' (Ioo a b) R) : MonoPair (.fin a) (.fin b) (extMap g vlo vhi) g h h' where
  meas := hm
  mono := by
    have key : ∀ e ∈ Icc (Ext.fin a) (.fin b), ∃ x ∈ Icc a b, e = .fin x := by
      rintro e ⟨h1, h2⟩
      rcases ext_trich e with rfl | ⟨x, rfl⟩ | rfl
      · exact absurd h1 (not_le_ninf _)
      · exact ⟨x, ⟨extFin_le.1 h1, extFin_le.1 h2⟩, rfl⟩
      · exact absurd h2 (not_pinf_le _)
    rcases hg with hg | hg
    · left
      intro e he e' he' hlt
      obtain ⟨x, hx, rfl⟩ := key e he
      obtain ⟨x', hx', rfl⟩ := key e' he'
      exact extFin_lt.2 (hg hx hx' (extFin_lt.1 hlt))
    · right
      intro e he e' he' hlt
      obtain ⟨x, hx, rfl⟩ := key e he
      obtain ⟨x', hx', rfl⟩ := key e' he'
      exact extFin_lt.2 (hg hx hx' (extFin_lt.1 hlt))
  real x y _ _ e := ext_fin_inj e
  diff x h1 h2 := hd x ⟨extFin_lt.1 h1, extFin_lt.1 h2⟩
  onto y hy := by
    obtain ⟨h1, h2, -⟩ := hi.2 y (hR y (by simpa only [ExtBetween, extMap_fin, extFin_lt] using hy))
    exact ⟨h y, extFin_lt.2 h1.1, extFin_lt.2 h1.2, h2⟩
  left x h1 h2 := (hi.1 x ⟨extFin_lt.1 h1, extFin_lt.1 h2⟩).2
  deriv x h1 h2 := (hi.2 _ (hi.1 x ⟨extFin_lt.1 h1, extFin_lt.1 h2⟩).1).2.2

end Pacal
