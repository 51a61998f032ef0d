import Verif.Conv.DivModel
import Verif.Conv.ProdSpec

/-! One pair of pieces in a quotient: which pairs are found, and what they contribute. -/

namespace Pacal
namespace Conv
open MeasureTheory Set Transform

/-! ### extended reals scaled by a number -/

theorem div_neg_eq (a : EReal) (x : ℝ) : a / ((-x : ℝ) : EReal) = -(a / x) := by
  rw [EReal.div_eq_inv_mul, EReal.div_eq_inv_mul, ← EReal.coe_inv, ← EReal.coe_inv, inv_neg, EReal.coe_neg, EReal.neg_mul]

theorem div_lt_pos {x : ℝ} (hx : 0 < x) (a t : EReal) : a / x < t ↔ a < x * t := by
  rw [EReal.div_lt_iff (EReal.coe_pos.2 hx) (EReal.coe_ne_top _), mul_comm]

theorem lt_div_pos {x : ℝ} (hx : 0 < x) (a t : EReal) : t < a / x ↔ x * t < a := by
  rw [EReal.lt_div_iff (EReal.coe_pos.2 hx) (EReal.coe_ne_top _), mul_comm]

theorem div_lt_neg {x : ℝ} (hx : x < 0) (a t : EReal) : a / x < t ↔ x * t < a := by
  have h := lt_div_pos (neg_pos.2 hx) a (-t)
  rw [div_neg_eq, EReal.neg_lt_neg_iff, EReal.coe_neg, neg_mul_neg] at h
  exact h

theorem lt_div_neg {x : ℝ} (hx : x < 0) (a t : EReal) : t < a / x ↔ a < x * t := by
  have h := div_lt_pos (neg_pos.2 hx) a (-t)
  rw [div_neg_eq, EReal.neg_lt_neg_iff, EReal.coe_neg, neg_mul_neg] at h
  exact h

/-- scaled interval -/
theorem scale_mem {x : ℝ} (hx : x ≠ 0) {a b : EReal} (hab : a ≤ b) (t : EReal) :
    (min (a / x) (b / x) < t ∧ t < max (a / x) (b / x)) ↔ a < x * t ∧ x * t < b := by
  rw [min_lt_iff, lt_max_iff]
  rcases lt_or_gt_of_ne hx with h | h
  · rw [div_lt_neg h, div_lt_neg h, lt_div_neg h, lt_div_neg h]
    constructor
    · rintro ⟨h1 | h1, h2 | h2⟩
      · exact absurd (h1.trans h2) (lt_irrefl _)
      · exact absurd (h1.trans_le (hab.trans h2.le)) (lt_irrefl _)
      · exact ⟨h2, h1⟩
      · exact absurd (h1.trans h2) (lt_irrefl _)
    · rintro ⟨h1, h2⟩; exact ⟨.inr h2, .inl h1⟩
  · rw [div_lt_pos h, div_lt_pos h, lt_div_pos h, lt_div_pos h]
    constructor
    · rintro ⟨h1 | h1, h2 | h2⟩
      · exact absurd (h1.trans h2) (lt_irrefl _)
      · exact ⟨h1, h2⟩
      · exact absurd (h1.trans_le (h2.le.trans hab)) (lt_irrefl _)
      · exact absurd (h1.trans h2) (lt_irrefl _)
    · rintro ⟨h1, h2⟩; exact ⟨.inl h1, .inr h2⟩

/-! ### the test -/

theorem fmul_real {x : ℝ} (hx : x ≠ 0) (e : EReal) : fmul x e = some (x * e) := by
  rw [fmul_comm, fmul_fin e x (.inl hx), mul_comm]

theorem lo_le_hi {s : Seg ℝ} (h : s.WF) : lo s ≤ hi s := by
  rcases isDirac_cases s with hs | ⟨b, n, rfl⟩
  · exact (lo_lt_hi hs h).le
  · exact le_rfl

theorem testDiv_ne {x : ℝ} (hx : x ≠ 0) {si sj : Seg ℝ} : TestDiv x si sj ↔
    (lo si < x * lo sj ∧ x * hi sj < hi si) ∨ (x * lo sj < hi si ∧ lo si < x * hi sj) := by
  simp only [TestDiv, fltLt, fmul_real hx, Option.some.injEq, exists_eq_left', exists_and_left]

theorem mul_mono_pos {x : ℝ} (hx : 0 < x) {a b : EReal} (h : a ≤ b) : (x : EReal) * a ≤ x * b :=
  mul_le_mul_of_nonneg_left h (EReal.coe_nonneg.2 hx.le)

theorem mul_anti_neg {x : ℝ} (hx : x < 0) {a b : EReal} (h : a ≤ b) : (x : EReal) * b ≤ x * a := by
  have := mul_mono_pos (neg_pos.2 hx) h
  rw [EReal.coe_neg, EReal.neg_mul, EReal.neg_mul, EReal.neg_le_neg_iff] at this
  exact this

theorem testDiv_pos {x : ℝ} (hx : 0 < x) {si sj : Seg ℝ} (hj : sj.WF) :
    TestDiv x si sj ↔ x * lo sj < hi si ∧ lo si < x * hi sj := by
  rw [testDiv_ne hx.ne']
  have := mul_mono_pos hx (lo_le_hi hj)
  constructor
  · rintro (⟨h1, h2⟩ | h)
    · exact ⟨this.trans_lt h2, h1.trans_le this⟩
    · exact h
  · exact .inr

theorem testDiv_neg {x : ℝ} (hx : x < 0) {si sj : Seg ℝ} (hj : sj.WF) :
    TestDiv x si sj ↔ x * hi sj < hi si ∧ lo si < x * lo sj := by
  rw [testDiv_ne hx.ne]
  have := mul_anti_neg hx (lo_le_hi hj)
  constructor
  · rintro (⟨h1, h2⟩ | ⟨h1, h2⟩)
    · exact ⟨h2, h1⟩
    · exact ⟨this.trans_lt h1, h2.trans_le this⟩
  · exact fun h => .inl ⟨h.2, h.1⟩

/-- two points with the quotient `x`, one of them inside its piece -/
theorem testDiv_of {x : ℝ} (hx : x ≠ 0) {si sj : Seg ℝ} (hj : sj.WF) {t : ℝ} (h1 : lo sj ≤ t) (h2 : (t : EReal) ≤ hi sj)
    (h3 : lo si ≤ ((x * t : ℝ) : EReal)) (h4 : ((x * t : ℝ) : EReal) ≤ hi si)
    (h : (lo sj < t ∧ (t : EReal) < hi sj) ∨ (lo si < ((x * t : ℝ) : EReal) ∧ ((x * t : ℝ) : EReal) < hi si)) : TestDiv x si sj := by
  rw [EReal.coe_mul] at h3 h4 h
  rcases lt_or_gt_of_ne hx with hx | hx
  · have m1 := mul_anti_neg hx h1
    have m2 := mul_anti_neg hx h2
    rw [testDiv_neg hx hj]
    rcases h with h | h
    · have s1 := (lt_div_neg hx (x * t) (lo sj)).1 (by rw [EReal.mul_comm, ← EReal.mul_div, EReal.div_self (EReal.coe_ne_bot _) (EReal.coe_ne_top _) (by exact_mod_cast hx.ne), mul_one]; exact h.1)
      have s2 := (div_lt_neg hx (x * t) (hi sj)).1 (by rw [EReal.mul_comm, ← EReal.mul_div, EReal.div_self (EReal.coe_ne_bot _) (EReal.coe_ne_top _) (by exact_mod_cast hx.ne), mul_one]; exact h.2)
      exact ⟨s2.trans_le h4, h3.trans_lt s1⟩
    · exact ⟨m2.trans_lt h.2, h.1.trans_le m1⟩
  · have m1 := mul_mono_pos hx h1
    have m2 := mul_mono_pos hx h2
    rw [testDiv_pos hx hj]
    rcases h with h | h
    · have s1 := (lt_div_pos hx (x * t) (lo sj)).1 (by rw [EReal.mul_comm, ← EReal.mul_div, EReal.div_self (EReal.coe_ne_bot _) (EReal.coe_ne_top _) (by exact_mod_cast hx.ne'), mul_one]; exact h.1)
      have s2 := (div_lt_pos hx (x * t) (hi sj)).1 (by rw [EReal.mul_comm, ← EReal.mul_div, EReal.div_self (EReal.coe_ne_bot _) (EReal.coe_ne_top _) (by exact_mod_cast hx.ne'), mul_one]; exact h.2)
      exact ⟨s1.trans_le h4, h3.trans_lt s2⟩
    · exact ⟨m1.trans_lt h.2, h.1.trans_le m2⟩

/-- a pair with an atom in the denominator -/
theorem testDiv_right {x b n : ℝ} (hx : x ≠ 0) {si : Seg ℝ} : TestDiv x si (.dirac b n) ↔ x * b ∈ si.inner := by
  rw [testDiv_ne hx, show lo (.dirac b n) = b from rfl, show hi (.dirac b n) = b from rfl, mem_inner, EReal.coe_mul]
  exact ⟨fun h => h.elim id fun h => ⟨h.2, h.1⟩, .inl⟩

/-- a pair with an atom in the numerator -/
theorem testDiv_left {x a m : ℝ} (hx : x ≠ 0) {sj : Seg ℝ} (hj : sj.WF) : TestDiv x (.dirac a m) sj ↔ a / x ∈ sj.inner := by
  rw [mem_inner, EReal.coe_div]
  rcases lt_or_gt_of_ne hx with hx | hx
  · rw [testDiv_neg hx hj, show lo (.dirac a m) = a from rfl, show hi (.dirac a m) = a from rfl, lt_div_neg hx, div_lt_neg hx, and_comm]
  · rw [testDiv_pos hx hj, show lo (.dirac a m) = a from rfl, show hi (.dirac a m) = a from rfl, lt_div_pos hx, div_lt_pos hx]

/-- a pair of continuous pieces: there are two inner points with the quotient `x` -/
theorem testDiv_cont {x : ℝ} (hx : x ≠ 0) {si sj : Seg ℝ} (hsi : si.isDirac = false) (hsj : sj.isDirac = false) (hi' : si.WF)
    (hj : sj.WF) : TestDiv x si sj ↔ ∃ t ∈ sj.inner, x * t ∈ si.inner := by
  constructor
  · intro h
    have hlt := lo_lt_hi hsi hi'
    have key : max (lo sj) (min (lo si / x) (hi si / x)) < min (hi sj) (max (lo si / x) (hi si / x)) := by
      rcases lt_or_gt_of_ne hx with hx | hx
      · obtain ⟨h1, h2⟩ := (testDiv_neg hx hj).1 h
        rw [← div_lt_neg hx] at h1
        rw [← lt_div_neg hx] at h2
        have h3 : hi si / x < lo si / x := EReal.div_lt_div_right_of_neg (EReal.coe_neg'.2 hx) (EReal.coe_ne_bot _) hlt
        rw [min_eq_right h3.le, max_eq_left h3.le]
        exact max_lt (lt_min (lo_lt_hi hsj hj) h2) (lt_min h1 h3)
      · obtain ⟨h1, h2⟩ := (testDiv_pos hx hj).1 h
        rw [← lt_div_pos hx] at h1
        rw [← div_lt_pos hx] at h2
        have h3 : lo si / x < hi si / x := EReal.div_lt_div_right_of_pos (EReal.coe_pos.2 hx) (EReal.coe_ne_top _) hlt
        rw [min_eq_left h3.le, max_eq_right h3.le]
        exact max_lt (lt_min (lo_lt_hi hsj hj) h1) (lt_min h2 h3)
    obtain ⟨t, h1, h2⟩ := EReal.lt_iff_exists_real_btwn.1 key
    rw [max_lt_iff] at h1
    rw [lt_min_iff] at h2
    have := (scale_mem hx hlt.le t).1 ⟨h1.2, h2.2⟩
    exact ⟨t, mem_inner.2 ⟨h1.1, h2.1⟩, mem_inner.2 (by rwa [EReal.coe_mul])⟩
  · rintro ⟨t, ht, hs⟩
    rw [mem_inner] at ht hs
    exact testDiv_of hx hj ht.1.le ht.2.le hs.1.le hs.2.le (.inl ht)

/-! ### integration -/

theorem segint_flags {q : Quad} {p : QPar} {F : ℝ → ℝ} {L U : EReal} {m n : Bool}
    (h : L < U → m = true ∨ n = true → ¬ isInf L ∧ ¬ isInf U) :
    segint q p F L U m n false false = segint q p F L U false false false false := by
  unfold segint
  split_ifs with h1 h2 h3 h4 h5 h6 <;> first | rfl | skip
  all_goals try (exact absurd ‹false = true› (by simp))
  all_goals try simp only [Bool.false_and, Bool.false_eq_true, if_false] at *
  all_goals
    exfalso
    have hlt : L < U := lt_of_le_of_ne (not_lt.1 h1) h2
    obtain ⟨a, b⟩ := h hlt (by tauto)
    unfold isInf at a b
    tauto

theorem segint_set {P : Par} (hP : ExactQ P.q P.qp) {F : ℝ → ℝ} {L U : EReal} {m n : Bool}
    (h : L < U → m = true ∨ n = true → ¬ isInf L ∧ ¬ isInf U) (hne : L ≠ ⊥ ∨ U ≠ ⊤)
    (hint : IntegrableOn F {t : ℝ | L < t ∧ (t : EReal) < U}) :
    (segint P.q P.qp F L U m n false false).map Prod.fst = .ok (∫ t in {t : ℝ | L < t ∧ (t : EReal) < U}, F t) := by
  rcases lt_or_ge U L with hUL | hLU
  · rw [C57_segint_reversed _ _ _ hUL]
    have : {t : ℝ | L < t ∧ (t : EReal) < U} = ∅ := by
      ext t
      simp only [mem_ofPred_eq, mem_empty_iff_false, iff_false]
      rintro ⟨h1, h2⟩
      exact absurd (h1.trans h2) (not_lt.2 hUL.le)
    rw [this]
    simp [Except.map]
  · rw [segint_flags h]
    obtain ⟨r, h1, h2⟩ := C57_segint hP.exact hP.eps hP.cond hP.expInf hP.expPole hLU hne
      (hint.congr_set_ae (openBetween_ae _ _).symm) false false
    rw [h1]
    show Except.ok r.1 = _
    rw [IsIntegral] at h2
    rw [h2]
    congr 1
    exact (setIntegral_congr_set (openBetween_ae _ _)).symm

/-- the piece is right or left of 0 -/
def OneSide (s : Seg ℝ) : Prop := 0 ≤ lo s ∨ hi s ≤ 0

theorem not_inf_of {a b : EReal} (h : 0 ≤ a ∨ b ≤ 0) {L U : EReal} (hL : a ≤ L) (hU : U ≤ b) (hlt : L < U) {p q : Prop}
    (hf : (¬ isInf L ∧ L < 0 ∧ p) ∨ (¬ isInf U ∧ 0 < U ∧ q)) : ¬ isInf L ∧ ¬ isInf U := by
  unfold isInf at *
  push Not at *
  rcases hf with ⟨h1, h2, -⟩ | ⟨h1, h2, -⟩
  · refine ⟨h1, ?_, ?_⟩
    · rintro rfl
      rcases h with h | h
      · exact absurd (h.trans hL) (not_le.2 h2)
      · exact absurd (hU.trans h) (by simp)
    · rintro rfl; exact absurd hlt (by simp)
  · refine ⟨⟨?_, ?_⟩, h1⟩
    · rintro rfl; exact absurd hlt (by simp)
    · rintro rfl
      rcases h with h | h
      · exact absurd (h.trans hL) (by simp)
      · exact absurd (hU.trans h) (not_le.2 h2)

theorem contDiv1_eq {P : Par} (hP : ExactQ P.q P.qp) {x : ℝ} {si sj : Seg ℝ} (hwi : si.WF)
    (hcj : OneSide sj) (hx : x ≠ 0) (h : Integrable fun t => den sj t * (|t| * den si (x * t))) :
    contDiv1 P x si sj = .ok (fibreK (fun x t => x * t) (fun t => |t|) (den sj) (den si) x) := by
  unfold contDiv1
  simp only [hx, if_false]
  obtain ⟨L, hL⟩ : ∃ L, L = max (lo sj) (min (lo si / x) (hi si / x)) := ⟨_, rfl⟩
  obtain ⟨U, hU⟩ : ∃ U, U = min (hi sj) (max (lo si / x) (hi si / x)) := ⟨_, rfl⟩
  rw [← hL, ← hU]
  have hm : ∀ t : ℝ, (L < t ∧ (t : EReal) < U) ↔ t ∈ sj.inner ∧ x * t ∈ si.inner := by
    intro t
    rw [hL, hU, max_lt_iff, lt_min_iff, mem_inner, mem_inner, EReal.coe_mul, ← scale_mem hx (lo_le_hi hwi)]
    tauto
  have hS := openBetween_measurable L U
  have hae : (fun t => den sj t * (|t| * den si (x * t))) = {t : ℝ | L < t ∧ (t : EReal) < U}.indicator (funD1 si sj x) := by
    ext t
    by_cases ht : L < t ∧ (t : EReal) < U
    · rw [indicator_of_mem (by exact ht)]
      obtain ⟨h1, h2⟩ := (hm t).1 ht
      rw [den_eq h1, den_eq h2, funD1]; ring
    · rw [indicator_of_notMem (by exact ht)]
      rw [hm, not_and_or] at ht
      rcases ht with h' | h' <;> simp [den_eq_zero h']
  rw [segint_set hP ?_ ?_ ?_, fibreK, hae, integral_indicator hS]
  · intro hlt hf
    refine not_inf_of hcj (by rw [hL]; exact le_max_left ..) (by rw [hU]; exact min_le_left ..) hlt
      (p := isInf (lo si) ∨ isInf (lo sj)) (q := isInf (hi si) ∨ isInf (hi sj)) ?_
    simpa only [forceM, forceP, decide_eq_true_eq] using hf
  · by_contra hc
    push Not at hc
    obtain ⟨h1, h2⟩ := hc
    have a1 : lo sj = ⊥ := le_bot_iff.1 (by rw [← h1, hL]; exact le_max_left ..)
    have a2 : hi sj = ⊤ := top_le_iff.1 (by rw [← h2, hU]; exact min_le_left ..)
    rcases fin_end sj with ⟨r, hr⟩ | ⟨r, hr⟩
    · rw [a1] at hr; exact EReal.coe_ne_bot _ hr.symm
    · rw [a2] at hr; exact EReal.coe_ne_top _ hr.symm
  · rw [hae, integrable_indicator_iff hS] at h
    exact h

theorem contDiv2_eq {P : Par} (hP : ExactQ P.q P.qp) {x : ℝ} {si sj : Seg ℝ} (hwj : sj.WF)
    (hci : OneSide si) (hx : x ≠ 0) (h : Integrable fun t => den sj t * (|t| * den si (x * t))) :
    contDiv2 P x si sj = .ok (fibreK (fun x t => x * t) (fun t => |t|) (den sj) (den si) x) := by
  unfold contDiv2
  simp only [hx, if_false]
  obtain ⟨L, hL⟩ : ∃ L, L = max (lo si) (min (lo sj * x) (hi sj * x)) := ⟨_, rfl⟩
  obtain ⟨U, hU⟩ : ∃ U, U = min (hi si) (max (lo sj * x) (hi sj * x)) := ⟨_, rfl⟩
  rw [← hL, ← hU]
  have hdiv : ∀ e : EReal, e * x = e / ((x⁻¹ : ℝ) : EReal) := by
    intro e; rw [EReal.div_eq_inv_mul, ← EReal.coe_inv, inv_inv, mul_comm]
  have hm : ∀ t : ℝ, (L < t ∧ (t : EReal) < U) ↔ t ∈ si.inner ∧ t / x ∈ sj.inner := by
    intro t
    rw [hL, hU, max_lt_iff, lt_min_iff, mem_inner, mem_inner, div_eq_inv_mul, EReal.coe_mul,
      ← scale_mem (inv_ne_zero hx) (lo_le_hi hwj), ← hdiv, ← hdiv]
    tauto
  have hS := openBetween_measurable L U
  have hae : (fun t => den si t * den sj (t / x) * |t| / x / x) = {t : ℝ | L < t ∧ (t : EReal) < U}.indicator (funD2 si sj x) := by
    ext t
    by_cases ht : L < t ∧ (t : EReal) < U
    · rw [indicator_of_mem (by exact ht)]
      obtain ⟨h1, h2⟩ := (hm t).1 ht
      rw [den_eq h1, den_eq h2, funD2, if_neg hx]
    · rw [indicator_of_notMem (by exact ht)]
      rw [hm, not_and_or] at ht
      rcases ht with h' | h' <;> simp [den_eq_zero h']
  -- the substitution
  have hsub : (fun t => den si t * den sj (t / x) * |t| / x / x) =
      fun t => |x|⁻¹ * (fun t => den sj t * (|t| * den si (x * t))) (t / x) := by
    ext t
    have e1 : x * (t / x) = t := mul_div_cancel₀ t hx
    have e2 : |t / x| = |t| / |x| := abs_div t x
    have e3 : x * x = |x| * |x| := (abs_mul_abs_self x).symm
    have hx' : |x| ≠ 0 := abs_ne_zero.2 hx
    dsimp only
    rw [e1, e2, div_div, e3]
    field_simp
  have hint2 : Integrable fun t => den si t * den sj (t / x) * |t| / x / x := by
    rw [hsub]
    exact (h.comp_div hx).const_mul _
  have hval : ∫ t, den si t * den sj (t / x) * |t| / x / x = fibreK (fun x t => x * t) (fun t => |t|) (den sj) (den si) x := by
    rw [hsub, integral_const_mul, Measure.integral_comp_div (fun t => den sj t * (|t| * den si (x * t))) x, smul_eq_mul, ← mul_assoc,
      inv_mul_cancel₀ (abs_ne_zero.2 hx), one_mul]
    rfl
  rw [segint_set hP ?_ ?_ ?_, ← hval, hae, integral_indicator hS]
  · intro hlt hf
    refine not_inf_of hci (by rw [hL]; exact le_max_left ..) (by rw [hU]; exact min_le_left ..) hlt
      (p := isInf (lo si) ∨ isInf (lo sj)) (q := isInf (hi si) ∨ isInf (hi sj)) ?_
    simpa only [forceM, forceP, decide_eq_true_eq] using hf
  · by_contra hc
    push Not at hc
    obtain ⟨h1, h2⟩ := hc
    have a1 : lo si = ⊥ := le_bot_iff.1 (by rw [← h1, hL]; exact le_max_left ..)
    have a2 : hi si = ⊤ := top_le_iff.1 (by rw [← h2, hU]; exact min_le_left ..)
    rcases fin_end si with ⟨r, hr⟩ | ⟨r, hr⟩
    · rw [a1] at hr; exact EReal.coe_ne_bot _ hr.symm
    · rw [a2] at hr; exact EReal.coe_ne_top _ hr.symm
  · rw [hae, integrable_indicator_iff hS] at hint2
    exact hint2

end Conv
end Pacal
