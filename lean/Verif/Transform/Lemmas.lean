import Verif.Transform.Model
import Mathlib.Analysis.SpecialFunctions.Pow.Deriv
import Mathlib.Analysis.Calculus.Deriv.Abs
import Mathlib.MeasureTheory.Function.JacobianOneDim
import Mathlib.MeasureTheory.Integral.IntervalIntegral.Basic
import Mathlib.Tactic.Linarith
import Mathlib.Tactic.FieldSimp
import Mathlib.Tactic.Ring

/-!
# Specification and lemmas for the variable transforms
-/

namespace Pacal
open Transform Set

/-- the parameter values that do not stand for infinity -/
def Transform.VT.dom (vt : VT) : Set ℝ := {t | t ∈ Icc vt.varMin vt.varMax ∧ t ∉ vt.varInf}

/-- `vt` is an invertible change of variable onto `D`: the inverse change maps the parameter interval (without
the values standing for infinity) one-to-one onto `D` with inverse `varChange`, it is strictly monotone, and the
derivative factor is the absolute value of its derivative. -/
structure IsChange (vt : VT) (D : Set ℝ) : Prop where
  order : vt.varMin ≤ vt.varMax
  maps : ∀ t ∈ vt.dom, vt.inv t ∈ D
  mapsBack : ∀ x ∈ D, vt.varChange x ∈ vt.dom
  left : ∀ t ∈ vt.dom, vt.varChange (vt.inv t) = t
  right : ∀ x ∈ D, vt.inv (vt.varChange x) = x
  mono : StrictMonoOn vt.inv vt.dom ∨ StrictAntiOn vt.inv vt.dom
  deriv : ∀ t ∈ vt.dom, ∃ d, HasDerivAt vt.inv d t ∧ |d| = vt.deriv t

theorem offset_pos (L : ℝ) : 0 < offset L := by
  unfold offset
  split
  · norm_num
  · rename_i h; have := abs_pos.2 h; positivity

/-! ### the two-sided reciprocal transform -/

theorem recPM_dom {t : ℝ} : t ∈ recPM.dom ↔ |t| < 1 := by
  simp only [VT.dom, recPM, mem_ofPred_eq, mem_Icc, List.mem_cons, List.not_mem_nil, or_false, not_or, abs_lt]
  constructor
  · rintro ⟨⟨h1, h2⟩, h3, h4⟩
    exact ⟨lt_of_le_of_ne h1 (Ne.symm h3), lt_of_le_of_ne h2 h4⟩
  · rintro ⟨h1, h2⟩
    exact ⟨⟨h1.le, h2.le⟩, h1.ne', h2.ne⟩

theorem recPM_inv_abs {t : ℝ} (h : |t| < 1) : |recPM.inv t| = |t| / (1 - |t|) := by
  simp only [recPM]
  rw [abs_div, abs_of_pos (show 0 < 1 - |t| by linarith)]

/-! ### the one-sided reciprocal transforms -/

theorem rpow_inv_rpow' {x e : ℝ} (hx : 0 ≤ x) (he : e ≠ 0) : (x ^ (1 / e)) ^ e = x := by
  rw [one_div]; exact Real.rpow_inv_rpow hx he
theorem rpow_rpow_inv' {x e : ℝ} (hx : 0 ≤ x) (he : e ≠ 0) : (x ^ e) ^ (1 / e) = x := by
  rw [one_div]; exact Real.rpow_rpow_inv hx he

/-- the three branches are the same power -/
theorem recPVar_eq {L e x : ℝ} (_hx : L ≤ x) : recPVar L e x = (offset L / (x - L + offset L)) ^ (1 / e) := by
  have ho := offset_pos L
  unfold recPVar
  split
  · rename_i h; subst h; simp
  · split
    · rename_i h; subst h; rw [Real.sqrt_eq_rpow]
    · rfl

theorem recP_inv_eq (L e : ℝ) (U : Option ℝ) (t : ℝ) : (recP L e U).inv t = L - offset L + offset L / t ^ e := by
  simp only [recP]
  split
  · rename_i h; subst h; simp
  · rfl

theorem recP_deriv_eq (L e : ℝ) (U : Option ℝ) (t : ℝ) : (recP L e U).deriv t = offset L * e / t ^ (e + 1) := by
  simp only [recP]
  split
  · rename_i h
    subst h
    rw [show (1 : ℝ) + 1 = 2 by norm_num, show (2 : ℝ) = ((2 : ℕ) : ℝ) by norm_num, Real.rpow_natCast]; ring
  · rfl

theorem ratio_bounds {o y : ℝ} (ho : 0 < o) (hy : 0 ≤ y) : 0 < o / (y + o) ∧ o / (y + o) ≤ 1 := by
  have h : 0 < y + o := by linarith
  exact ⟨div_pos ho h, by rw [div_le_one h]; linarith⟩

theorem core_left {o e t : ℝ} (ho : 0 < o) (he : 0 < e) (ht : 0 < t) :
    (o / (-o + o / t ^ e + o)) ^ (1 / e) = t := by
  have hp : 0 < t ^ e := Real.rpow_pos_of_pos ht e
  rw [show -o + o / t ^ e + o = o / t ^ e by ring, div_div_cancel₀ ho.ne', rpow_rpow_inv' ht.le he.ne']

theorem core_right {o e y : ℝ} (ho : 0 < o) (he : 0 < e) (hy : 0 ≤ y) :
    -o + o / ((o / (y + o)) ^ (1 / e)) ^ e = y := by
  rw [rpow_inv_rpow' (ratio_bounds ho hy).1.le he.ne', div_div_cancel₀ ho.ne']
  ring

theorem core_anti {o e s t : ℝ} (ho : 0 < o) (he : 0 < e) (hs : 0 < s) (hst : s < t) : o / t ^ e < o / s ^ e :=
  div_lt_div_of_pos_left ho (Real.rpow_pos_of_pos hs e) (Real.rpow_lt_rpow hs.le hst he)

theorem core_deriv {o e t : ℝ} (ht : 0 < t) : HasDerivAt (fun t => o / t ^ e) (-(o * e / t ^ (e + 1))) t := by
  have hp : 0 < t ^ e := Real.rpow_pos_of_pos ht e
  have h := (Real.hasDerivAt_rpow_const (x := t) (p := e) (.inl ht.ne')).fun_inv hp.ne'
  have h2 := h.const_mul o
  have e1 : (fun t : ℝ => o * (t ^ e)⁻¹) = fun t => o / t ^ e := by funext u; rw [div_eq_mul_inv]
  rw [e1] at h2
  refine h2.congr_deriv ?_
  rw [Real.rpow_add ht, Real.rpow_one, Real.rpow_sub ht, Real.rpow_one]
  field_simp

theorem core_ge {o e t : ℝ} (ho : 0 < o) (he : 0 < e) (ht : 0 < t) (h1 : t ≤ 1) : o ≤ o / t ^ e := by
  have hp : 0 < t ^ e := Real.rpow_pos_of_pos ht e
  rw [le_div_iff₀ hp]
  have := Real.rpow_le_one ht.le h1 he.le
  nlinarith

theorem recP_dom_none {L e t : ℝ} : t ∈ (recP L e none).dom ↔ 0 < t ∧ t ≤ 1 := by
  simp only [VT.dom, recP, mem_ofPred_eq, mem_Icc, List.mem_cons, List.not_mem_nil, or_false]
  constructor
  · rintro ⟨⟨h1, h2⟩, h3⟩; exact ⟨lt_of_le_of_ne h1 (Ne.symm h3), h2⟩
  · rintro ⟨h1, h2⟩; exact ⟨⟨h1.le, h2⟩, h1.ne'⟩

theorem recP_dom_some {L e U t : ℝ} : t ∈ (recP L e (some U)).dom ↔ recPVar L e U ≤ t ∧ t ≤ 1 := by
  simp [VT.dom, recP]

theorem recPVar_pos {L e x : ℝ} (hx : L ≤ x) : 0 < recPVar L e x := by
  rw [recPVar_eq hx]
  exact Real.rpow_pos_of_pos (ratio_bounds (offset_pos L) (by linarith)).1 _

theorem recPVar_le {L e x : ℝ} (he : 0 < e) (hx : L ≤ x) : recPVar L e x ≤ 1 := by
  rw [recPVar_eq hx]
  obtain ⟨h1, h2⟩ := ratio_bounds (offset_pos L) (show 0 ≤ x - L by linarith)
  exact Real.rpow_le_one h1.le h2 (by positivity)

theorem recPVar_anti {L e x y : ℝ} (he : 0 < e) (hx : L ≤ x) (hxy : x ≤ y) : recPVar L e y ≤ recPVar L e x := by
  rw [recPVar_eq hx, recPVar_eq (hx.trans hxy)]
  have ho := offset_pos L
  apply Real.rpow_le_rpow (ratio_bounds ho (by linarith)).1.le _ (by positivity)
  exact div_le_div_of_nonneg_left ho.le (by linarith) (by linarith)

theorem recP_left {L e t : ℝ} (U : Option ℝ) (he : 0 < e) (ht : 0 < t) (h1 : t ≤ 1) :
    L ≤ (recP L e U).inv t ∧ (recP L e U).varChange ((recP L e U).inv t) = t := by
  have ho := offset_pos L
  have hge := core_ge ho he ht h1
  have hL : L ≤ (recP L e U).inv t := by rw [recP_inv_eq]; linarith
  refine ⟨hL, ?_⟩
  rw [show (recP L e U).varChange = recPVar L e from rfl, recPVar_eq hL, recP_inv_eq]
  have := core_left ho he ht
  rwa [show L - offset L + offset L / t ^ e - L + offset L = -offset L + offset L / t ^ e + offset L by ring]

theorem recP_right {L e x : ℝ} (U : Option ℝ) (he : 0 < e) (hx : L ≤ x) :
    (recP L e U).inv ((recP L e U).varChange x) = x := by
  have ho := offset_pos L
  rw [recP_inv_eq, show (recP L e U).varChange = recPVar L e from rfl, recPVar_eq hx]
  have := core_right ho he (show 0 ≤ x - L by linarith)
  linarith

theorem recP_anti {L e s t : ℝ} (U : Option ℝ) (he : 0 < e) (hs : 0 < s) (hst : s < t) :
    (recP L e U).inv t < (recP L e U).inv s := by
  rw [recP_inv_eq, recP_inv_eq]
  have := core_anti (offset_pos L) he hs hst
  linarith

theorem recP_hasDeriv {L e t : ℝ} (U : Option ℝ) (he : 0 < e) (ht : 0 < t) :
    ∃ d, HasDerivAt (recP L e U).inv d t ∧ |d| = (recP L e U).deriv t := by
  refine ⟨-(offset L * e / t ^ (e + 1)), ?_, ?_⟩
  · have h := (core_deriv (o := offset L) (e := e) ht).const_add (L - offset L)
    have e1 : (fun t => L - offset L + offset L / t ^ e) = (recP L e U).inv := by
      funext t; exact (recP_inv_eq L e U t).symm
    rw [e1] at h
    exact h
  · rw [recP_deriv_eq, abs_neg]
    have := offset_pos L
    have := Real.rpow_pos_of_pos ht (e + 1)
    exact abs_of_pos (by positivity)

/-! the mirrored transform -/

theorem offset_neg (L : ℝ) : offset (-L) = offset L := by simp [offset]

theorem recMVar_eq {U e x : ℝ} (hx : x ≤ U) : recMVar U e x = recPVar (-U) e (-x) := by
  have ho := offset_pos U
  rw [recPVar_eq (by linarith), offset_neg]
  have e1 : -offset U / (x - U - offset U) = offset U / (-x - -U + offset U) := by
    rw [← neg_div_neg_eq]; congr 1 <;> ring
  have e2 : |x - U - offset U| = -x - -U + offset U := by
    rw [abs_of_neg (by linarith)]; ring
  unfold recMVar
  rw [e1, e2]
  split
  · rename_i h; subst h; simp
  · split
    · rename_i h; subst h; rw [Real.sqrt_eq_rpow]
    · rfl

theorem recM_inv_eq (U e : ℝ) (L L' : Option ℝ) (t : ℝ) : (recM U e L).inv t = -(recP (-U) e L').inv t := by
  rw [recP_inv_eq, offset_neg]
  simp only [recM]
  split
  · rename_i h; subst h; simp; ring
  · split
    · rename_i h; subst h
      rw [show (2 : ℝ) = ((2 : ℕ) : ℝ) by norm_num, Real.rpow_natCast]; ring
    · ring

theorem recM_deriv_eq (U e : ℝ) (L L' : Option ℝ) (t : ℝ) : (recM U e L).deriv t = (recP (-U) e L').deriv t := by
  simp only [recM, recP, offset_neg]

/-- a mirrored change of variable is one -/
theorem IsChange.mirror {vt wt : VT} {D : Set ℝ} (h : IsChange vt D) (hmin : wt.varMin = vt.varMin)
    (hmax : wt.varMax = vt.varMax) (hinf : wt.varInf = vt.varInf) (hinv : ∀ t, wt.inv t = -vt.inv t)
    (hvar : ∀ x, -x ∈ D → wt.varChange x = vt.varChange (-x)) (hder : ∀ t, wt.deriv t = vt.deriv t) :
    IsChange wt {x | -x ∈ D} := by
  have hdom : wt.dom = vt.dom := by simp only [VT.dom, hmin, hmax, hinf]
  have hinv' : wt.inv = fun t => -vt.inv t := funext hinv
  refine ⟨by rw [hmin, hmax]; exact h.order, ?_, ?_, ?_, ?_, ?_, ?_⟩
  · intro t ht
    rw [hdom] at ht
    show -wt.inv t ∈ D
    rw [hinv, neg_neg]; exact h.maps t ht
  · intro x hx
    rw [hdom, hvar x hx]; exact h.mapsBack _ hx
  · intro t ht
    rw [hdom] at ht
    have : -wt.inv t ∈ D := by rw [hinv, neg_neg]; exact h.maps t ht
    rw [hvar _ this, hinv, neg_neg, h.left t ht]
  · intro x hx
    rw [hvar x hx, hinv, h.right _ hx, neg_neg]
  · rw [hdom, hinv']
    rcases h.mono with hm | hm
    · right; intro s hs t ht hst; exact neg_lt_neg (hm hs ht hst)
    · left; intro s hs t ht hst; exact neg_lt_neg (hm hs ht hst)
  · intro t ht
    rw [hdom] at ht
    obtain ⟨d, hd, hd'⟩ := h.deriv t ht
    exact ⟨-d, by rw [hinv']; exact hd.neg, by rw [abs_neg, hd', hder]⟩

/-! ### the algebraic transforms -/

theorem algPM_dom {c t : ℝ} : t ∈ (algPM c).dom ↔ -1 < t ∧ t < 1 := by
  simp only [VT.dom, algPM, mem_ofPred_eq, mem_Icc, List.mem_cons, List.not_mem_nil, or_false, not_or]
  constructor
  · rintro ⟨⟨h1, h2⟩, h3, h4⟩
    exact ⟨lt_of_le_of_ne h1 (Ne.symm h3), lt_of_le_of_ne h2 h4⟩
  · rintro ⟨h1, h2⟩
    exact ⟨⟨h1.le, h2.le⟩, h1.ne', h2.ne⟩

theorem algPM_hasDeriv {c t : ℝ} (h1 : -1 < t) (h2 : t < 1) :
    HasDerivAt (algPM c).inv ((algPM c).deriv t) t := by
  have hp : 0 < 1 - t * t := by nlinarith
  have hs : 0 < √(1 - t * t) := Real.sqrt_pos.2 hp
  have hsq : √(1 - t * t) ^ 2 = 1 - t * t := Real.sq_sqrt hp.le
  have hin : HasDerivAt (fun t : ℝ => 1 - t * t) (-(t + t)) t := by
    have := ((hasDerivAt_id' t).mul (hasDerivAt_id' t)).const_sub 1
    exact this.congr_deriv (by ring)
  have hd := ((hasDerivAt_id' t).const_mul c).fun_div (hin.sqrt hp.ne') hs.ne'
  have h3 : √((1 - t * t) ^ 3) = (1 - t * t) * √(1 - t * t) := by
    rw [show (1 - t * t) ^ 3 = (1 - t * t) ^ 2 * (1 - t * t) by ring, Real.sqrt_mul (by positivity),
      Real.sqrt_sq hp.le]
  refine hd.congr_deriv ?_
  simp only [algPM]
  rw [h3, hsq]
  have hne : 1 - t * t ≠ 0 := hp.ne'
  obtain ⟨r, hr⟩ : ∃ r, r = √(1 - t * t) := ⟨_, rfl⟩
  rw [← hr] at hs hsq ⊢
  rw [← hsq] at hne ⊢
  field_simp
  nlinarith [hsq]

theorem algP_dom {L c t : ℝ} : t ∈ (algP L c).dom ↔ -1 ≤ t ∧ t < 1 := by
  simp only [VT.dom, algP, mem_ofPred_eq, mem_Icc, List.mem_cons, List.not_mem_nil, or_false]
  constructor
  · rintro ⟨⟨h1, h2⟩, h3⟩; exact ⟨h1, lt_of_le_of_ne h2 h3⟩
  · rintro ⟨h1, h2⟩; exact ⟨⟨h1, h2.le⟩, h2.ne⟩

/-! ### applying a transform -/

theorem scatter_eq (vt : VT) (defVal : ℝ) (g : ℝ → ℝ) : ∀ ts : List ℝ, open Classical in
    scatter vt defVal ts ((ts.filter fun t => t ∉ vt.varInf).map g)
      = ts.map fun t => if t ∈ vt.varInf then defVal else g t
  | [] => rfl
  | t :: ts => by
    classical
    by_cases h : t ∈ vt.varInf
    · simp [scatter, h, ← scatter_eq vt defVal g ts]
    · simp [scatter, h, ← scatter_eq vt defVal g ts]

end Pacal
