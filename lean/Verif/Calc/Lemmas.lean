import Verif.Calc.Model
import Verif.Rule.Exact
import Verif.Nodes.PropsBary

/-! Helper lemmas for C65: the Chebyshev transforms, the coefficients of the derivative. -/

namespace Pacal
namespace Calc
open Real Finset Polynomial Polynomial.Chebyshev Nodes Rule

/-- the Chebyshev series with coefficients `a` -/
noncomputable def ser (a : ℕ → ℝ) (N : ℕ) : ℝ[X] := ∑ k ∈ range (N + 1), a k • T ℝ (k : ℕ)

theorem ser_cos (a : ℕ → ℝ) (N : ℕ) (θ : ℝ) : (ser a N).eval (cos θ) = ∑ k ∈ range (N + 1), a k * cos (k * θ) := by
  unfold ser
  rw [eval_finset_sum]
  refine sum_congr rfl fun k _ => ?_
  rw [eval_smul, smul_eq_mul, T_real_cos]
  simp

/-- every polynomial is a Chebyshev series -/
theorem exists_ser : ∀ (N : ℕ) (p : ℝ[X]), p.degree < (N + 1 : ℕ) → ∃ a : ℕ → ℝ, p = ser a N ∧
    p.coeff N = a N * (T ℝ (N : ℕ)).coeff N := by
  intro N
  induction N with
  | zero =>
    intro p hp
    refine ⟨fun _ => p.coeff 0, ?_, by simp⟩
    have := eq_C_of_degree_le_zero (p := p) (by
      rcases eq_or_ne p 0 with rfl | h0
      · simp
      · rw [degree_eq_natDegree h0] at hp ⊢
        have : p.natDegree < 1 := by exact_mod_cast hp
        exact_mod_cast (by omega : p.natDegree ≤ 0))
    conv_lhs => rw [this]
    simp [ser, smul_eq_C_mul]
  | succ N ih =>
    intro p hp
    have hT : (T ℝ ((N + 1 : ℕ) : ℤ)).natDegree = N + 1 := by rw [natDegree_T, Int.natAbs_natCast]
    have hl : (T ℝ ((N + 1 : ℕ) : ℤ)).coeff (N + 1) ≠ 0 := by
      have h1 : (T ℝ ((N + 1 : ℕ) : ℤ)).leadingCoeff ≠ 0 := leadingCoeff_ne_zero.2 (T_ne_zero ℝ _)
      rwa [leadingCoeff, hT] at h1
    set c := p.coeff (N + 1) / (T ℝ ((N + 1 : ℕ) : ℤ)).coeff (N + 1) with hc
    have hr : (p - c • T ℝ ((N + 1 : ℕ) : ℤ)).degree < (N + 1 : ℕ) := by
      rw [degree_lt_iff_coeff_zero]
      intro m hm
      rw [coeff_sub, coeff_smul, smul_eq_mul]
      rcases Nat.lt_or_ge (N + 1) m with h1 | h1
      · rw [(degree_lt_iff_coeff_zero p (N + 1 + 1)).1 hp m h1,
          coeff_eq_zero_of_natDegree_lt (by rw [hT]; exact h1)]
        ring
      · have : m = N + 1 := le_antisymm h1 hm
        subst this
        rw [hc, div_mul_cancel₀ _ hl, sub_self]
    obtain ⟨a, ha, _⟩ := ih _ hr
    refine ⟨fun k => if k = N + 1 then c else a k, ?_, ?_⟩
    · unfold ser at *
      rw [sum_range_succ]
      simp only [if_true]
      rw [sum_congr rfl (g := fun k : ℕ => a k • T ℝ (k : ℕ)), ← ha]
      · ring
      · intro k hk
        rw [mem_range] at hk
        rw [if_neg (by omega)]
    · simp only [if_true]
      rw [hc, div_mul_cancel₀ _ hl]

theorem fftReal_range {M : ℕ} (hM : 0 < M) (u : ℕ → ℝ) :
    fftReal ((List.range M).map u) = (List.range M).map fun k => M * wt M u k := by
  unfold fftReal
  rw [List.length_map, List.length_range]
  apply List.map_congr_left
  intro k _
  unfold wt
  have hM' : (M : ℝ) ≠ 0 := by exact_mod_cast hM.ne'
  have e : (((List.range M).map u).zipIdx.map fun p => (p.1 : ℂ) *
      Complex.exp (-(2 * π * Complex.I * (p.2 : ℂ) * (k : ℂ) / (M : ℂ))))
      = (List.range M).map fun j => (u j : ℂ) * Complex.exp (-(2 * π * Complex.I * (j : ℂ) * (k : ℂ) / (M : ℂ))) := by
    apply List.ext_getElem
    · simp
    · intro i h1 h2
      simp
  rw [e, ← List.sum_toFinset _ List.nodup_range, List.toFinset_range, Complex.re_sum, mul_div_cancel₀ _ hM']
  refine sum_congr rfl fun j _ => ?_
  rw [show -(2 * (π : ℂ) * Complex.I * j * k / (M : ℂ)) = ((-(2 * π * j * k / M) : ℝ) : ℂ) * Complex.I by
    push_cast; ring]
  rw [Complex.re_ofReal_mul, Complex.exp_ofReal_mul_I_re, cos_neg]

theorem wt_cosine {M : ℕ} (hM : 0 < M) (m k : ℕ) : wt M (fun j => cos (2 * π * m * j / M)) k
    = 1 / 2 * ((if (M : ℤ) ∣ (m : ℤ) - k then 1 else 0) + (if (M : ℤ) ∣ (m : ℤ) + k then 1 else 0)) := by
  have hM' : (M : ℝ) ≠ 0 := by exact_mod_cast hM.ne'
  unfold wt
  have h1 : ∀ j ∈ range M, cos (2 * π * m * j / M) * cos (2 * π * j * k / M)
      = 1 / 2 * (cos (2 * π * (m - k : ℤ) * j / M) + cos (2 * π * (m + k : ℤ) * j / M)) := by
    intro j _
    push_cast
    rw [show 2 * π * ((m : ℝ) - k) * j / M = 2 * π * m * j / M - 2 * π * j * k / M by ring,
      show 2 * π * ((m : ℝ) + k) * j / M = 2 * π * m * j / M + 2 * π * j * k / M by ring, cos_sub, cos_add]
    ring
  rw [sum_congr rfl h1, ← mul_sum, sum_add_distrib, sum_cos hM, sum_cos hM]
  split_ifs <;> field_simp <;> ring

theorem wt_sum {M : ℕ} (s : Finset ℕ) (a : ℕ → ℝ) (u : ℕ → ℕ → ℝ) (k : ℕ) :
    wt M (fun j => ∑ m ∈ s, a m * u m j) k = ∑ m ∈ s, a m * wt M (u m) k := by
  unfold wt
  simp only [sum_mul, mul_div_assoc']
  rw [sum_comm, sum_div]
  refine sum_congr rfl fun m _ => ?_
  rw [mul_sum]
  congr 1
  exact sum_congr rfl fun j _ => by ring

/-- the Fourier coefficients of a Chebyshev series on the unit circle -/
theorem wt_ser {N : ℕ} (hN : 1 ≤ N) (a : ℕ → ℝ) {k : ℕ} (hk : k ≤ N) :
    wt (2 * N) (fun j => (ser a N).eval (cos (j * π / N))) k
      = (if k = 0 ∨ k = N then 1 else 1 / 2) * a k := by
  have hN' : (N : ℝ) ≠ 0 := by exact_mod_cast (by omega : N ≠ 0)
  have e : (fun j : ℕ => (ser a N).eval (cos (j * π / N)))
      = fun j : ℕ => ∑ m ∈ range (N + 1), a m * cos (2 * π * m * j / (2 * N : ℕ)) := by
    funext j
    rw [ser_cos]
    refine sum_congr rfl fun m _ => ?_
    push_cast
    congr 2
    field_simp
  rw [e, wt_sum (u := fun m j => cos (2 * π * m * j / (2 * N : ℕ)))]
  rw [sum_eq_single_of_mem k (mem_range.2 (by omega))]
  · rw [wt_cosine (by omega), mul_comm (a k)]
    congr 1
    rw [if_pos (by simp)]
    by_cases h : k = 0 ∨ k = N
    · rw [if_pos h, if_pos]
      · norm_num
      · rcases h with rfl | rfl
        · simp
        · exact ⟨1, by push_cast; ring⟩
    · rw [if_neg h, if_neg]
      · norm_num
      · rintro ⟨c, hc⟩
        push_cast at hc
        have h1 : 0 < c := by
          by_contra hn
          have : (2 * (N : ℤ)) * c ≤ 0 := mul_nonpos_of_nonneg_of_nonpos (by omega) (by omega)
          omega
        have : (2 * (N : ℤ)) * 1 ≤ 2 * N * c := mul_le_mul_of_nonneg_left (by omega) (by omega)
        omega
  · intro m hm hne
    rw [mem_range] at hm
    rw [wt_cosine (by omega), if_neg, if_neg]
    · ring
    · rintro ⟨c, hc⟩
      push_cast at hc
      have h1 : 0 < c := by
        by_contra hn
        have : (2 * (N : ℤ)) * c ≤ 0 := mul_nonpos_of_nonneg_of_nonpos (by omega) (by omega)
        omega
      have : (2 * (N : ℤ)) * 1 ≤ 2 * N * c := mul_le_mul_of_nonneg_left (by omega) (by omega)
      omega
    · intro h
      have := Int.eq_zero_of_abs_lt_dvd h (by rw [abs_lt]; push_cast; omega)
      omega

theorem cos_reflect {N : ℕ} (hN : 1 ≤ N) {j : ℕ} (hj : j ≤ 2 * N) (k : ℕ) :
    cos (k * (((2 * N - j : ℕ) : ℝ) * π / N)) = cos (k * ((j : ℝ) * π / N)) := by
  have hN' : (N : ℝ) ≠ 0 := by exact_mod_cast (by omega : N ≠ 0)
  rw [Nat.cast_sub hj]
  push_cast
  rw [show (k : ℝ) * ((2 * N - j) * π / N) = k * (2 * π) - k * (j * π / N) by field_simp,
    cos_nat_mul_two_pi_sub]

theorem eval_reflect {N : ℕ} (hN : 1 ≤ N) (p : ℝ[X]) {j : ℕ} (hj : j ≤ 2 * N) :
    p.eval (cos (((2 * N - j : ℕ) : ℝ) * π / N)) = p.eval (cos ((j : ℝ) * π / N)) := by
  have := cos_reflect hN hj 1
  simp only [Nat.cast_one, one_mul] at this
  rw [this]

theorem neg_cos_node {N : ℕ} (hN : 1 ≤ N) {j : ℕ} (hj : j ≤ N) :
    -cos (((N - j : ℕ) : ℝ) * π / N) = cos ((j : ℝ) * π / N) := by
  have hN' : (N : ℝ) ≠ 0 := by exact_mod_cast (by omega : N ≠ 0)
  rw [Nat.cast_sub hj, show ((N : ℝ) - j) * π / N = π - j * π / N by field_simp, cos_pi_sub, neg_neg]

/-- the transform of the values of a Chebyshev series: its coefficients, with the last one doubled -/
theorem chebt2_ok {N : ℕ} (hN : 1 ≤ N) (a : ℕ → ℝ) :
    chebt2 ((List.range (N + 1)).map fun j : ℕ => (ser a N).eval (-cos ((j : ℝ) * π / N)))
      = .ok ((List.range (N + 1)).map fun i => (if i = 0 then 2 else 1) * a (N - i)) := by
  have hN' : (N : ℝ) ≠ 0 := by exact_mod_cast (by omega : N ≠ 0)
  unfold chebt2
  simp only [List.length_map, List.length_range]
  rw [if_neg (by omega)]
  have e : ((List.range (N + 1)).map fun j : ℕ => (ser a N).eval (-cos ((j : ℝ) * π / N))).reverse
        ++ ((List.range (N + 1)).map fun j : ℕ => (ser a N).eval (-cos ((j : ℝ) * π / N))).tail.dropLast
      = (List.range (2 * N)).map fun j : ℕ => (ser a N).eval (cos ((j : ℝ) * π / N)) := by
    apply List.ext_getElem
    · simp; omega
    · intro i h1 h2
      simp only [List.length_map, List.length_range] at h2
      by_cases hi : i ≤ N
      · rw [List.getElem_append_left (by simp; omega)]
        simp only [List.getElem_reverse, List.getElem_map, List.getElem_range, List.length_map, List.length_range]
        rw [show N + 1 - 1 - i = N - i by omega, neg_cos_node hN hi]
      · rw [List.getElem_append_right (by simp; omega)]
        simp only [List.getElem_dropLast, List.getElem_tail, List.getElem_map, List.getElem_range, List.length_reverse,
          List.length_map, List.length_range]
        rw [← eval_reflect hN (ser a N) (j := i) (by omega), ← neg_cos_node hN (j := 2 * N - i) (by omega)]
        rw [show i - (N + 1) + 1 = N - (2 * N - i) by omega]
  rw [e, fftReal_range (by omega), List.map_map]
  congr 1
  apply List.ext_getElem
  · simp; omega
  · intro i h1 h2
    simp only [List.length_map, List.length_range] at h2
    have hg : ∀ k < 2 * N, (((List.range (2 * N)).map ((fun x => x / (2 * ((N + 1 : ℕ) : ℝ) - 2)) ∘ fun k =>
        ((2 * N : ℕ) : ℝ) * wt (2 * N) (fun j => (ser a N).eval (cos ((j : ℝ) * π / N))) k)).getD k 0)
        = wt (2 * N) (fun j => (ser a N).eval (cos ((j : ℝ) * π / N))) k := by
      intro k hk
      rw [List.getD_eq_getElem?_getD, List.getElem?_map, List.getElem?_range hk]
      simp only [Option.map_some, Option.getD_some, Function.comp]
      push_cast
      rw [show 2 * ((N : ℝ) + 1) - 2 = 2 * N by ring, mul_div_cancel_left₀ _ (by positivity)]
    simp only [List.getElem_reverse, List.length_take, List.length_map, List.length_range, List.getElem_take,
      List.getElem_map, List.getElem_range]
    rw [show min (N + 1) (2 * N) = N + 1 by omega, show N + 1 - 1 = N by omega]
    rw [hg _ (by omega), wt_ser hN a (by omega)]
    rcases Nat.eq_zero_or_pos i with rfl | hi
    · rw [if_pos (by omega), hg _ (by omega), show N + (N - (N - 0)) = N by omega, Nat.sub_zero, wt_ser hN a le_rfl]
      simp
      ring
    · by_cases h0 : i = N
      · subst h0
        rw [if_neg (by omega)]
        simp [show i ≠ 0 by omega]
      · rw [if_pos (by omega), hg _ (by omega), show N + (N - (N - i)) = 2 * N - (N - i) by omega,
          wt_reflect (by omega) _ (by omega), wt_ser hN a (by omega)]
        rw [if_neg (by omega), if_neg (by omega)]
        ring

/-- the values computed by the inverse transform: the last coefficient counts half -/
theorem ichebt2_ok {N : ℕ} (hN : 1 ≤ N) (c : ℕ → ℝ) :
    ichebt2 ((List.range (N + 1)).map fun i => c (N - i))
      = .ok ((List.range (N + 1)).map fun j : ℕ =>
          (ser (fun k => if k = N then c k / 2 else c k) N).eval (cos ((j : ℝ) * π / N))) := by
  have hN' : (N : ℝ) ≠ 0 := by exact_mod_cast (by omega : N ≠ 0)
  unfold ichebt2
  have hlast : ((List.range (N + 1)).map fun i => c (N - i)).getLast? = some (c 0) := by
    rw [List.range_succ, List.map_append]; simp
  rw [hlast]
  simp only [List.length_map, List.length_range]
  set o : ℕ → ℝ := fun k => if k = 0 then c 0 else c (if k < N then k else 2 * N - k) / 2 with ho
  have e : c 0 :: (((List.range (N + 1)).map fun i => c (N - i)).tail.dropLast.reverse.map (· / 2)
      ++ ((List.range (N + 1)).map fun i => c (N - i)).dropLast.map (· / 2)) = (List.range (2 * N)).map o := by
    apply List.ext_getElem
    · simp; omega
    · intro i h1 h2
      simp only [List.length_map, List.length_range] at h2
      rcases i with _ | i
      · simp [ho]
      · rw [List.getElem_cons_succ]
        by_cases hi : i + 1 < N
        · rw [List.getElem_append_left (by simp; omega)]
          simp only [List.getElem_map, List.getElem_reverse, List.getElem_dropLast, List.getElem_tail,
            List.getElem_range, List.length_dropLast, List.length_tail, List.length_map, List.length_range, ho]
          rw [if_neg (by omega), if_pos hi]
          congr 2
          omega
        · rw [List.getElem_append_right (by simp; omega)]
          simp only [List.getElem_map, List.getElem_dropLast, List.getElem_range, List.length_map, List.length_reverse,
            List.length_dropLast, List.length_tail, List.length_range, ho]
          rw [if_neg (by omega), if_neg hi]
          congr 2
          omega
  have hw : ∀ j, j ≤ 2 * N → (2 * N : ℝ) * wt (2 * N) o j
      = (ser (fun k => if k = N then c k / 2 else c k) N).eval (cos ((j : ℝ) * π / N)) := by
    intro j hj
    have h2N : ((2 * N : ℕ) : ℝ) = 2 * N := by push_cast; ring
    unfold wt
    rw [h2N, mul_div_cancel₀ _ (by positivity), ser_cos, show 2 * N = N + N by ring, sum_range_add]
    have hcos : ∀ k : ℕ, cos (2 * π * k * j / (2 * N)) = cos (k * ((j : ℝ) * π / N)) := by
      intro k
      congr 1
      field_simp
    have h1 : ∑ k ∈ range N, o k * cos (2 * π * k * j / (2 * N))
        = ∑ k ∈ range N, c k / 2 * cos (k * ((j : ℝ) * π / N)) + c 0 / 2 := by
      obtain ⟨M, rfl⟩ : ∃ M, N = M + 1 := ⟨N - 1, by omega⟩
      rw [sum_range_succ', sum_range_succ']
      simp only [hcos]
      rw [sum_congr rfl (g := fun k : ℕ => c (k + 1) / 2 * cos ((k + 1 : ℕ) * ((j : ℝ) * π / ((M + 1 : ℕ) : ℝ))))]
      · simp [ho]
        ring
      · intro k hk
        rw [mem_range] at hk
        simp only [ho]
        rw [if_neg (by omega), if_pos (by omega)]
    have h2 : ∑ k ∈ range N, o (N + k) * cos (2 * π * (N + k : ℕ) * j / (2 * N))
        = ∑ k ∈ range N, c k / 2 * cos (k * ((j : ℝ) * π / N)) + c N / 2 * cos (N * ((j : ℝ) * π / N)) - c 0 / 2 := by
      have h3 : ∀ k ∈ range N, o (N + k) * cos (2 * π * (N + k : ℕ) * j / (2 * N))
          = (fun k : ℕ => c (k + 1) / 2 * cos ((k + 1 : ℕ) * ((j : ℝ) * π / N))) (N - 1 - k) := by
        intro k hk
        rw [mem_range] at hk
        simp only [ho]
        rw [if_neg (by omega), if_neg (by omega), hcos]
        rw [show 2 * N - (N + k) = N - 1 - k + 1 by omega]
        congr 1
        rw [show N + k = 2 * N - (N - 1 - k + 1) by omega]
        have := cos_reflect hN (j := N - 1 - k + 1) (by omega) j
        rw [show (j : ℝ) * (((2 * N - (N - 1 - k + 1) : ℕ) : ℝ) * π / N)
          = ((2 * N - (N - 1 - k + 1) : ℕ) : ℝ) * (j * π / N) by ring] at this
        rw [this]
        congr 1
        ring
      rw [sum_congr rfl h3, sum_range_reflect (fun k : ℕ => c (k + 1) / 2 * cos ((k + 1 : ℕ) * ((j : ℝ) * π / N)))]
      have := sum_range_succ' (fun k : ℕ => c k / 2 * cos (k * ((j : ℝ) * π / N))) N
      rw [sum_range_succ] at this
      simp only [Nat.cast_zero, zero_mul, cos_zero, mul_one] at this
      linarith
    rw [h1, h2, sum_range_succ, if_pos rfl]
    have h4 : ∑ k ∈ range N, (if k = N then c k / 2 else c k) * cos (k * ((j : ℝ) * π / N))
        = ∑ k ∈ range N, c k / 2 * cos (k * ((j : ℝ) * π / N))
          + ∑ k ∈ range N, c k / 2 * cos (k * ((j : ℝ) * π / N)) := by
      rw [← sum_add_distrib]
      refine sum_congr rfl fun k hk => ?_
      rw [mem_range] at hk
      rw [if_neg (by omega)]
      ring
    rw [h4]
    ring
  rw [e, ifftReal_range]
  congr 1
  have hg : ∀ k < 2 * N, ((List.range (2 * N)).map (wt (2 * N) o)).getD k 0 = wt (2 * N) o k := by
    intro k hk
    rw [List.getD_eq_getElem?_getD, List.getElem?_map, List.getElem?_range hk]
    rfl
  rw [hg 0 (by omega), hg _ (by omega)]
  apply List.ext_getElem
  · simp
    omega
  · intro i h1 h2
    simp only [List.length_map, List.length_range] at h2
    simp only [List.getElem_map, List.getElem_range]
    rw [← hw i (by omega)]
    push_cast
    rw [show (N : ℝ) + 1 - 1 = N by ring]
    rcases i with _ | i
    · simp
      ring
    · rw [List.getElem_cons_succ]
      by_cases hi : i + 1 = N
      · rw [List.getElem_append_right (by simp; omega)]
        simp only [List.getElem_singleton]
        rw [hi]
        ring
      · rw [List.getElem_append_left (by simp; omega)]
        simp only [List.getElem_zipWith, List.getElem_drop, List.getElem_take, List.getElem_reverse, List.getElem_map,
          List.getElem_range, List.length_drop, List.length_map, List.length_range]
        rw [show N + 1 + (2 * N - (N + 1) - 1 - i) = 2 * N - (i + 1) by omega, wt_reflect (by omega) _ (by omega),
          Nat.add_comm 1 i]
        ring

theorem ichebt2_one (c : ℝ) : ichebt2 [c] = .ok [0, 0] := by
  simp [ichebt2]

end Calc
end Pacal
