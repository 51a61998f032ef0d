import Verif.Transform.Front
import Verif.Transform.Props
import Mathlib.MeasureTheory.Integral.IntervalIntegral.Basic

/-!
Specification and lemmas for `Verif.Transform.PropsFront`.
-/
set_option linter.unusedSectionVars false

namespace Pacal
open Transform Set MeasureTheory

/-- the quadrature is exact on finite intervals -/
def Exact (q : Quad) : Prop := ∀ g a b, (q g a b).1 = ∫ t in a..b, g t

/-- `r` is the integral of `f` over the interval `D` -/
def IsIntegral (D : Set ℝ) (f : ℝ → ℝ) (r : ℝ × ℝ) : Prop := r.1 = ∫ x in D, f x

theorem integrateWith_isIntegral {q : Quad} (hq : Exact q) {vt : VT} {D : Set ℝ} (h : IsChange vt D) (f : ℝ → ℝ) :
    IsIntegral D f (integrateWith q vt f) := by
  rw [IsIntegral, ← C42_integral h f]
  exact hq _ _ _

theorem IsIntegral.congr_ae {D E : Set ℝ} {f : ℝ → ℝ} {r : ℝ × ℝ} (h : IsIntegral D f r) (hDE : D =ᵐ[volume] E) :
    IsIntegral E f r := by
  rw [IsIntegral] at *; rw [h, setIntegral_congr_set hDE]

/-- the substitution `x = t^N (b-a) + a` as a transform -/
noncomputable def xnVT (a b N : ℝ) : VT where
  varChange x := ((x - a) / (b - a)) ^ (1 / N)
  inv t := t ^ N * (b - a) + a
  deriv t := N * (b - a) * t ^ (N - 1)
  varMin := 0
  varMax := 1
  varInf := [0]

theorem xnVT_dom {a b N t : ℝ} : t ∈ (xnVT a b N).dom ↔ 0 < t ∧ t ≤ 1 := by
  simp only [VT.dom, xnVT, mem_ofPred_eq, mem_Icc, List.mem_cons, List.not_mem_nil, or_false]
  constructor
  · rintro ⟨⟨h1, h2⟩, h3⟩; exact ⟨lt_of_le_of_ne h1 (Ne.symm h3), h2⟩
  · rintro ⟨h1, h2⟩; exact ⟨⟨h1.le, h2⟩, h1.ne'⟩

theorem xnVT_isChange {a b N : ℝ} (hab : a < b) (hN : 0 < N) : IsChange (xnVT a b N) (Ioc a b) := by
  have hd : 0 < b - a := by linarith
  refine ⟨by norm_num [xnVT], ?_, ?_, ?_, ?_, ?_, ?_⟩
  · intro t ht
    rw [xnVT_dom] at ht
    have h1 := Real.rpow_pos_of_pos ht.1 N
    have h2 := Real.rpow_le_one ht.1.le ht.2 hN.le
    simp only [xnVT, mem_Ioc]
    constructor <;> nlinarith
  · intro x hx
    rw [xnVT_dom]
    have h1 : 0 < (x - a) / (b - a) := div_pos (by linarith [hx.1]) hd
    have h2 : (x - a) / (b - a) ≤ 1 := by rw [div_le_one hd]; linarith [hx.2]
    exact ⟨Real.rpow_pos_of_pos h1 _, Real.rpow_le_one h1.le h2 (by positivity)⟩
  · intro t ht
    rw [xnVT_dom] at ht
    simp only [xnVT]
    rw [add_sub_cancel_right, mul_div_cancel_right₀ _ hd.ne', rpow_rpow_inv' ht.1.le hN.ne']
  · intro x hx
    have h1 : 0 < (x - a) / (b - a) := div_pos (by linarith [hx.1]) hd
    simp only [xnVT]
    rw [rpow_inv_rpow' h1.le hN.ne', div_mul_cancel₀ _ hd.ne']; ring
  · left
    intro s hs t ht hst
    rw [xnVT_dom] at hs
    have := Real.rpow_lt_rpow hs.1.le hst hN
    simp only [xnVT]
    nlinarith
  · intro t ht
    rw [xnVT_dom] at ht
    refine ⟨(xnVT a b N).deriv t, ?_, abs_of_pos ?_⟩
    · have h := ((Real.hasDerivAt_rpow_const (x := t) (p := N) (.inl ht.1.ne')).mul_const (b - a)).add_const a
      refine h.congr_deriv ?_
      simp only [xnVT]; ring
    · have := Real.rpow_pos_of_pos ht.1 (N - 1)
      simp only [xnVT]
      positivity

theorem xn_core {a b N : ℝ} (hab : a ≤ b) (hN : 0 < N) (f : ℝ → ℝ) :
    ∫ t in (0 : ℝ)..1, N * (b - a) * f (t ^ N * (b - a) + a) * t ^ (N - 1) = ∫ x in Icc a b, f x := by
  rcases eq_or_lt_of_le hab with h | h
  · subst h; simp
  · rw [integral_Icc_eq_integral_Ioc, ← C42_integral (xnVT_isChange h hN) f]
    show _ = ∫ t in (0 : ℝ)..1, applyScalar (xnVT a b N) f t 0 true
    rw [intervalIntegral.integral_of_le zero_le_one, intervalIntegral.integral_of_le zero_le_one]
    refine setIntegral_congr_fun measurableSet_Ioc fun t ht => ?_
    have h0 : t ∉ (xnVT a b N).varInf := by simp [xnVT, ht.1.ne']
    simp only [applyScalar]
    rw [if_neg h0, if_pos trivial]
    simp only [xnVT]; ring

theorem xn_core_neg {a b N : ℝ} (hab : a ≤ b) (hN : 0 < N) (f : ℝ → ℝ) :
    ∫ t in (0 : ℝ)..1, N * (b - a) * f (b - t ^ N * (b - a)) * t ^ (N - 1) = ∫ x in Icc a b, f x := by
  have h := xn_core (a := -b) (b := -a) (by linarith) hN (fun x => f (-x))
  have e1 : ∫ x in Icc (-b) (-a), f (-x) = ∫ x in Icc a b, f x := by
    rw [integral_Icc_eq_integral_Ioc, integral_Icc_eq_integral_Ioc, ← intervalIntegral.integral_of_le hab,
      ← intervalIntegral.integral_of_le (by linarith), intervalIntegral.integral_comp_neg, neg_neg, neg_neg]
  rw [e1] at h
  rw [← h]
  refine intervalIntegral.integral_congr fun t _ => ?_
  show _ = N * (-a - -b) * f (-(t ^ N * (-a - -b) + -b)) * t ^ (N - 1)
  rw [show -a - -b = b - a by ring, show -(t ^ N * (b - a) + -b) = b - t ^ N * (b - a) by ring]

theorem wideSum_fst (q : Quad) (f : ℝ → ℝ) (node : ℕ → ℝ) (n : ℕ) :
    (wideSum q f node n).1 = ∑ i ∈ Finset.range n, (q f (node i) (node (i + 1))).1 := by
  unfold wideSum
  induction n with
  | zero => simp
  | succ n ih => rw [List.range_succ, List.foldl_append, Finset.sum_range_succ, ← ih]; rfl

theorem wideSum_isIntegral {q : Quad} (hq : Exact q) {f : ℝ → ℝ} {node : ℕ → ℝ} {n : ℕ} {a b : ℝ} (hab : a ≤ b)
    (h0 : node 0 = a) (hn : node n = b) (hin : ∀ i ≤ n, node i ∈ Icc a b) (hf : IntegrableOn f (Icc a b)) :
    IsIntegral (Icc a b) f (wideSum q f node n) := by
  rw [IsIntegral, wideSum_fst]
  have hi : ∀ k < n, IntervalIntegrable f volume (node k) (node (k + 1)) := by
    intro k hk
    rw [intervalIntegrable_iff]
    apply hf.mono_set
    have h1 := hin k hk.le
    have h2 := hin (k + 1) hk
    exact uIoc_subset_uIcc.trans (uIcc_subset_Icc h1 h2)
  calc ∑ i ∈ Finset.range n, (q f (node i) (node (i + 1))).1
      = ∑ i ∈ Finset.range n, ∫ t in node i..node (i + 1), f t := Finset.sum_congr rfl fun i _ => hq _ _ _
    _ = ∫ t in node 0..node n, f t := intervalIntegral.sum_integral_adjacent_intervals hi
    _ = _ := by rw [h0, hn, intervalIntegral.integral_of_le hab, integral_Icc_eq_integral_Ioc]

theorem wideCount_pos {cond w : ℝ} (hc : 1 < cond) (hw : cond < w) : 0 < wideCount cond w := by
  rw [wideCount, Nat.ceil_pos]
  exact div_pos (Real.logb_pos (by norm_num) (hc.trans hw)) (Real.logb_pos (by norm_num) hc)

theorem rpow_mid {a b : ℝ} (ha : 0 < a) (hab : a ≤ b) {n i : ℕ} (hi : i ≤ n) (hn : 0 < n) :
    a ≤ (10 : ℝ) ^ (Real.logb 10 a + i * ((Real.logb 10 b - Real.logb 10 a) / n)) ∧
    (10 : ℝ) ^ (Real.logb 10 a + i * ((Real.logb 10 b - Real.logb 10 a) / n)) ≤ b := by
  have hb : 0 < b := ha.trans_le hab
  have hl : Real.logb 10 a ≤ Real.logb 10 b := Real.logb_le_logb_of_le (by norm_num) ha hab
  have hn' : (0 : ℝ) < n := by exact_mod_cast hn
  have hi' : (i : ℝ) ≤ n := by exact_mod_cast hi
  have h0 : 0 ≤ (Real.logb 10 b - Real.logb 10 a) / n := div_nonneg (by linarith) hn'.le
  have h1 : (n : ℝ) * ((Real.logb 10 b - Real.logb 10 a) / n) = Real.logb 10 b - Real.logb 10 a := by field_simp
  have h2 : (i : ℝ) * ((Real.logb 10 b - Real.logb 10 a) / n) ≤ Real.logb 10 b - Real.logb 10 a := by
    exact (mul_le_mul_of_nonneg_right hi' h0).trans h1.le
  have h3 : 0 ≤ (i : ℝ) * ((Real.logb 10 b - Real.logb 10 a) / n) := mul_nonneg (Nat.cast_nonneg _) h0
  constructor
  · calc a = (10 : ℝ) ^ Real.logb 10 a := (Real.rpow_logb (by norm_num) (by norm_num) ha).symm
      _ ≤ _ := Real.rpow_le_rpow_of_exponent_le (by norm_num) (by linarith)
  · calc _ ≤ (10 : ℝ) ^ Real.logb 10 b := Real.rpow_le_rpow_of_exponent_le (by norm_num) (by linarith)
      _ = b := Real.rpow_logb (by norm_num) (by norm_num) hb

theorem q_isIntegral {q : Quad} (hq : Exact q) (f : ℝ → ℝ) {a b : ℝ} (hab : a ≤ b) :
    IsIntegral (Icc a b) f (q f a b) := by
  rw [IsIntegral, hq, intervalIntegral.integral_of_le hab, integral_Icc_eq_integral_Ioc]

theorem wideFin_isIntegral {q : Quad} (hq : Exact q) {cond : ℝ} (hc : 1 < cond) {f : ℝ → ℝ} {a b : ℝ} (hab : a ≤ b)
    (hf : IntegrableOn f (Icc a b)) : IsIntegral (Icc a b) f (wideFin q cond f a b) := by
  unfold wideFin
  split_ifs with h1 h2 h3
  · have hn := wideCount_pos hc h2.1
    refine wideSum_isIntegral hq hab ?_ ?_ ?_ hf
    · simp [wideNode, hn.ne]
    · simp [wideNode]
    · intro i hi
      unfold wideNode
      split_ifs with e1 e2
      · exact right_mem_Icc.2 hab
      · exact left_mem_Icc.2 hab
      · rw [one_mul, abs_of_pos h2.2.1, abs_of_pos (h2.2.1.trans h2.2.2)]
        exact rpow_mid h2.2.1 hab hi hn
  · obtain ⟨h3, h4, h5⟩ := h3
    have ha : a < 0 := h4.trans h5
    have hw : cond < a / b := by
      have e : a / b = 1 / (b / a) := by rw [one_div_div]
      have hp : 0 < b / a := div_pos_of_neg_of_neg h5 ha
      rw [e, lt_one_div (by linarith) hp]; exact h3
    have hn := wideCount_pos hc hw
    refine wideSum_isIntegral hq hab ?_ ?_ ?_ hf
    · simp [wideNode, hn.ne]
    · simp [wideNode]
    · intro i hi
      unfold wideNode
      split_ifs with e1 e2
      · exact right_mem_Icc.2 hab
      · exact left_mem_Icc.2 hab
      · rw [abs_of_neg ha, abs_of_neg h5]
        -- the same nodes counted from the other end
        have hn' : (0 : ℝ) < (wideCount cond (a / b) : ℕ) := by exact_mod_cast hn
        obtain ⟨n, hnn⟩ : ∃ n, n = wideCount cond (a / b) := ⟨_, rfl⟩
        rw [← hnn] at hi hn hn' ⊢
        have h := rpow_mid (a := -b) (b := -a) (by linarith) (by linarith) (n := n) (i := n - i) (Nat.sub_le _ _) hn
        rw [Nat.cast_sub hi] at h
        have e : Real.logb 10 (-b) + ((n : ℝ) - i) * ((Real.logb 10 (-a) - Real.logb 10 (-b)) / n)
            = Real.logb 10 (-a) + i * ((Real.logb 10 (-b) - Real.logb 10 (-a)) / n) := by
          field_simp; ring
        rw [e] at h
        constructor <;> linarith [h.1, h.2]
  · exact q_isIntegral hq f hab
  · exact q_isIntegral hq f hab

/-- the pieces add up -/
theorem IsIntegral.add {f : ℝ → ℝ} {a m b : ℝ} (h1 : a ≤ m) (h2 : m ≤ b) (hf : IntegrableOn f (Icc a b)) {r s : ℝ × ℝ}
    (hr : IsIntegral (Icc a m) f r) (hs : IsIntegral (Icc m b) f s) {u : ℝ × ℝ} (hu : u.1 = r.1 + s.1) :
    IsIntegral (Icc a b) f u := by
  rw [IsIntegral] at *
  rw [hu, hr, hs, integral_Icc_eq_integral_Ioc, integral_Icc_eq_integral_Ioc, integral_Icc_eq_integral_Ioc,
    ← intervalIntegral.integral_of_le h1, ← intervalIntegral.integral_of_le h2,
    ← intervalIntegral.integral_of_le (h1.trans h2)]
  apply intervalIntegral.integral_add_adjacent_intervals
  · rw [intervalIntegrable_iff_integrableOn_Icc_of_le h1]; exact hf.mono_set (Icc_subset_Icc_right h2)
  · rw [intervalIntegrable_iff_integrableOn_Icc_of_le h2]; exact hf.mono_set (Icc_subset_Icc_left h1)

/-- the real points between two extended ends -/
def between (L U : EReal) : Set ℝ := {x | L ≤ (x : EReal) ∧ (x : EReal) ≤ U}

/-- there is an exact quadrature -/
noncomputable def exactQuad : Quad := fun g a b => (∫ t in a..b, g t, 0)

end Pacal
