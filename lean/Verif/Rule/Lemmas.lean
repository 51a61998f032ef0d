import Verif.Rule.Model
import Verif.Rule.Trig

/-! Helper lemmas for C64: the coefficient lists in closed form. -/

namespace Pacal
namespace Rule
open Real Finset

/-- the entries of `v0` -/
noncomputable def vv (l j : ℕ) : ℝ :=
  if j < l then 2 / (1 - 4 * (j : ℝ) ^ 2) else if j = l then -(1 / (2 * (l : ℝ) - 1)) else 0

theorem odds_length (M : ℕ) : (odds M).length = M / 2 := by simp [odds]

theorem v0_small {M : ℕ} (hM : M < 2) : v0 M = .error .index := by
  have : M / 2 = 0 := by omega
  simp [v0, odds, this]

theorem v0_ok {M : ℕ} (hM : 2 ≤ M) : v0 M = .ok ((List.range (M + 1)).map (vv (M / 2))) := by
  have hl : 1 ≤ M / 2 := by omega
  have hlast : (odds M).getLast? = some (2 * ((M / 2 : ℕ) : ℤ) - 1) := by
    obtain ⟨k, hk⟩ : ∃ k, M / 2 = k + 1 := ⟨M / 2 - 1, by omega⟩
    unfold odds
    rw [hk, List.range_succ, List.map_append]
    simp
    ring
  unfold v0
  simp only [hlast]
  congr 1
  rw [odds_length]
  apply List.ext_getElem
  · simp [odds]; omega
  · intro i h1 h2
    simp only [List.length_map, List.length_range] at h2
    simp only [List.getElem_map, List.getElem_range, vv]
    by_cases c1 : i < M / 2
    · rw [if_pos c1, List.getElem_append_left (by simp [odds]; omega), List.getElem_append_left (by simpa [odds] using c1)]
      simp only [List.getElem_map, odds, List.getElem_range]
      push_cast
      rw [← div_neg]
      congr 1
      ring
    · rw [if_neg c1]
      by_cases c2 : i = M / 2
      · subst c2
        rw [if_pos rfl, List.getElem_append_left (by simp [odds]), List.getElem_append_right (by simp [odds])]
        simp [-Int.natCast_ediv]
      · rw [if_neg c2, List.getElem_append_right (by simp [odds]; omega)]
        simp

theorem fold_range (M : ℕ) (v : ℕ → ℝ) : fold ((List.range (M + 1)).map v)
    = (List.range M).map fun j => v j + v (M - j) := by
  unfold fold
  apply List.ext_getElem
  · simp
  · intro i h1 h2
    simp only [List.length_map, List.length_range] at h2
    simp only [List.getElem_zipWith, List.getElem_dropLast, List.getElem_map, List.getElem_range,
      List.getElem_reverse, List.getElem_tail, List.length_tail, List.length_map, List.length_range]
    congr 2
    omega

/-- the entries of `g` -/
noncomputable def gg (M j : ℕ) : ℝ :=
  (-1 + (if j = M / 2 then (M : ℝ) else 0) + (if j = M - M / 2 then (M : ℝ) else 0)) /
    ((M : ℝ) ^ 2 - 1 + ((M % 2 : ℕ) : ℝ))

theorem gvec_eq (M : ℕ) : gvec M = (List.range M).map (gg M) := by
  unfold gvec
  simp only [odds_length]
  apply List.ext_getElem
  · simp
  · intro i h1 h2
    simp only [List.getElem_map, List.getElem_modify, List.getElem_replicate, List.getElem_range, gg]
    congr 1
    simp only [eq_comm (a := i)]
    split_ifs <;> ring

theorem ifftReal_range {M : ℕ} (u : ℕ → ℝ) : ifftReal ((List.range M).map u) = (List.range M).map (wt M u) := by
  unfold ifftReal
  rw [List.length_map, List.length_range]
  apply List.map_congr_left
  intro k _
  unfold wt
  have e : (((List.range M).map u).zipIdx.map fun p => (p.1 : ℂ) *
      Complex.exp (2 * π * Complex.I * (p.2 : ℂ) * (k : ℂ) / (M : ℂ)))
      = (List.range M).map fun j => (u j : ℂ) * Complex.exp (2 * π * Complex.I * (j : ℂ) * (k : ℂ) / (M : ℂ)) := by
    apply List.ext_getElem
    · simp
    · intro i h1 h2
      simp
  rw [e, ← List.sum_toFinset _ List.nodup_range, List.toFinset_range]
  rw [show (M : ℂ) = ((M : ℝ) : ℂ) by push_cast; rfl, Complex.div_ofReal_re, Complex.re_sum]
  congr 1
  refine sum_congr rfl fun j _ => ?_
  rw [show 2 * (π : ℂ) * Complex.I * j * k / ((M : ℝ) : ℂ) = ((2 * π * j * k / M : ℝ) : ℂ) * Complex.I by
    push_cast; ring]
  rw [Complex.re_ofReal_mul, Complex.exp_ofReal_mul_I_re]

/-- the Fourier coefficients of Fejér's rule -/
noncomputable def uF (M j : ℕ) : ℝ := vv (M / 2) j + vv (M / 2) (M - j)

/-- the Fourier coefficients of the Clenshaw–Curtis rule -/
noncomputable def uC (M j : ℕ) : ℝ := uF M j + gg M j

theorem fejer2_ok {M : ℕ} (hM : 2 ≤ M) :
    fejer2 (M + 1) = .ok ((List.range (M - 1)).map fun k => wt M (uF M) (k + 1)) := by
  unfold fejer2
  rw [Nat.add_sub_cancel, v0_ok hM]
  show Except.ok _ = _
  rw [fold_range, ifftReal_range]
  congr 1
  obtain ⟨k, rfl⟩ : ∃ k, M = k + 1 := ⟨M - 1, by omega⟩
  rw [List.range_succ_eq_map, List.map_cons, List.tail_cons, List.map_map, Nat.add_sub_cancel]
  rfl

theorem clenshaw_ok {M : ℕ} (hM : 2 ≤ M) : clenshaw (M + 1) = .ok ((List.range (M + 1)).map (wt M (uC M))) := by
  unfold clenshaw
  rw [Nat.add_sub_cancel, v0_ok hM]
  have e : List.zipWith (· + ·) (fold ((List.range (M + 1)).map (vv (M / 2)))) (gvec M)
      = (List.range M).map (uC M) := by
    rw [fold_range, gvec_eq]
    apply List.ext_getElem <;> simp [uC, uF]
  show (match (ifftReal _).head? with | none => Except.error PyErr.index | some c0 => .ok (_ ++ [c0])) = _
  rw [e, ifftReal_range]
  obtain ⟨k, rfl⟩ : ∃ k, M = k + 1 := ⟨M - 1, by omega⟩
  have h0 : ((List.range (k + 1)).map (wt (k + 1) (uC (k + 1)))).head? = some (wt (k + 1) (uC (k + 1)) 0) := by
    rw [List.range_succ_eq_map]; rfl
  rw [h0, List.range_succ (n := k + 1), List.map_append, List.map_singleton, wt_last (by omega)]

theorem small_error {n : ℕ} (hn : n < 3) : fejer2 n = .error .index ∧ clenshaw n = .error .index := by
  unfold fejer2 clenshaw
  rw [v0_small (by omega)]
  exact ⟨rfl, rfl⟩

/-! ### the Fourier coefficients -/

theorem sum_vv_aux (l : ℕ) : ∑ j ∈ range l, (2 : ℝ) / (1 - 4 * (j : ℝ) ^ 2) = 1 / (2 * (l : ℝ) - 1) + 1 := by
  induction l with
  | zero => norm_num
  | succ l ih =>
    rw [sum_range_succ, ih]
    have h2 : (2 * (l : ℝ) - 1) ≠ 0 := by
      intro h
      have : (2 * l : ℝ) = 1 := by linarith
      have : 2 * l = 1 := by exact_mod_cast this
      omega
    have h1 : (2 * (l : ℝ) + 1) ≠ 0 := by positivity
    rw [show 1 - 4 * (l : ℝ) ^ 2 = -((2 * l + 1) * (2 * l - 1)) by ring]
    push_cast
    rw [show 2 * ((l : ℝ) + 1) - 1 = 2 * l + 1 by ring]
    field_simp
    ring

theorem sum_vv {M l : ℕ} (h : l ≤ M) : ∑ j ∈ range (M + 1), vv l j = 1 := by
  have h1 : ∑ j ∈ range (M + 1), vv l j = ∑ j ∈ range (l + 1), vv l j := by
    symm
    apply sum_subset
    · intro j hj; rw [mem_range] at *; omega
    · intro j _ hj
      rw [mem_range] at hj
      unfold vv
      rw [if_neg (by omega), if_neg (by omega)]
  rw [h1, sum_range_succ]
  have h2 : ∑ j ∈ range l, vv l j = ∑ j ∈ range l, (2 : ℝ) / (1 - 4 * (j : ℝ) ^ 2) :=
    sum_congr rfl fun j hj => by unfold vv; rw [if_pos (mem_range.1 hj)]
  rw [h2, sum_vv_aux]
  unfold vv
  rw [if_neg (by omega), if_pos rfl]
  ring

theorem sum_uF {M : ℕ} (hM : 2 ≤ M) : ∑ j ∈ range M, uF M j = 0 := by
  unfold uF
  have h0 := sum_vv (M := M) (l := M / 2) (by omega)
  have hM0 : vv (M / 2) M = 0 := by
    unfold vv; rw [if_neg (by omega), if_neg (by omega)]
  have h00 : vv (M / 2) 0 = 2 := by
    unfold vv; rw [if_pos (by omega)]; norm_num
  rw [sum_add_distrib]
  have h1 : ∑ j ∈ range M, vv (M / 2) j = 1 := by
    rw [sum_range_succ, hM0, add_zero] at h0; exact h0
  have h2 : ∑ j ∈ range M, vv (M / 2) (M - j) = -1 := by
    have := sum_range_reflect (vv (M / 2)) (M + 1)
    rw [Nat.add_sub_cancel, sum_range_succ, Nat.sub_self, h00, h0] at this
    linarith
  rw [h1, h2]; norm_num

theorem uF_symm {M : ℕ} (j : ℕ) (h1 : 1 ≤ j) (h2 : j < M) : uF M (M - j) = uF M j := by
  unfold uF
  rw [show M - (M - j) = j by omega, add_comm]

theorem gg_symm {M : ℕ} (j : ℕ) (h1 : 1 ≤ j) (h2 : j < M) : gg M (M - j) = gg M j := by
  unfold gg
  have e1 : (M - j = M / 2) ↔ j = M - M / 2 := by omega
  have e2 : (M - j = M - M / 2) ↔ j = M / 2 := by omega
  simp only [e1, e2]
  ring

theorem uC_symm {M : ℕ} (j : ℕ) (h1 : 1 ≤ j) (h2 : j < M) : uC M (M - j) = uC M j := by
  unfold uC
  rw [uF_symm j h1 h2, gg_symm j h1 h2]

theorem den_pos {M : ℕ} (hM : 2 ≤ M) : 0 < (M : ℝ) ^ 2 - 1 + ((M % 2 : ℕ) : ℝ) := by
  have : (2 : ℝ) ≤ M := by exact_mod_cast hM
  have : (0 : ℝ) ≤ ((M % 2 : ℕ) : ℝ) := Nat.cast_nonneg _
  nlinarith

theorem sum_gg {M : ℕ} (hM : 2 ≤ M) :
    ∑ j ∈ range M, gg M j = M / ((M : ℝ) ^ 2 - 1 + ((M % 2 : ℕ) : ℝ)) := by
  unfold gg
  rw [← sum_div, sum_add_distrib, sum_add_distrib, sum_ite_eq', sum_ite_eq', if_pos (mem_range.2 (by omega)),
    if_pos (mem_range.2 (by omega))]
  simp

theorem wtF_zero {M : ℕ} (hM : 2 ≤ M) : wt M (uF M) 0 = 0 := by rw [wt_zero, sum_uF hM, zero_div]

theorem wtC_zero {M : ℕ} (hM : 2 ≤ M) : wt M (uC M) 0 = 1 / ((M : ℝ) ^ 2 - 1 + ((M % 2 : ℕ) : ℝ)) := by
  have h0 : (M : ℝ) ≠ 0 := by
    have : (2 : ℝ) ≤ M := by exact_mod_cast hM
    linarith
  have := (den_pos hM).ne'
  rw [wt_zero]
  unfold uC
  rw [sum_add_distrib, sum_uF hM, sum_gg hM]
  field_simp
  ring

theorem uF_low {M s : ℕ} (hs : s < M / 2) : uF M s = 2 / (1 - 4 * (s : ℝ) ^ 2) := by
  unfold uF vv
  rw [if_pos hs, if_neg (by omega), if_neg (by omega), add_zero]

theorem uF_mid {M : ℕ} (hM : 2 ≤ M) : uF M (M / 2) = if M % 2 = 0 then -(2 / ((M : ℝ) - 1)) else -(1 / ((M : ℝ) - 2)) := by
  obtain ⟨l, hl⟩ : ∃ l, l = M / 2 := ⟨_, rfl⟩
  unfold uF vv
  rw [← hl, if_neg (lt_irrefl l), if_pos rfl, if_neg (by omega)]
  split_ifs with h1 h2 h2
  · have : (M : ℝ) = 2 * l := by
      have : M = 2 * l := by omega
      exact_mod_cast this
    rw [this]; ring
  · omega
  · omega
  · have : (M : ℝ) = 2 * l + 1 := by
      have : M = 2 * l + 1 := by omega
      exact_mod_cast this
    rw [this]; ring_nf

theorem uC_low {M s : ℕ} (hM : 2 ≤ M) (hs : s < M / 2) :
    uC M s + wt M (uC M) 0 = 2 / (1 - 4 * (s : ℝ) ^ 2) := by
  rw [wtC_zero hM]
  unfold uC gg
  rw [uF_low hs, if_neg (by omega), if_neg (by omega)]
  ring

theorem uC_mid {M : ℕ} (hM : 2 ≤ M) :
    uC M (M / 2) + wt M (uC M) 0 = 2 / (1 - 4 * ((M / 2 : ℕ) : ℝ) ^ 2) := by
  rw [wtC_zero hM]
  unfold uC gg
  rw [uF_mid hM, if_pos rfl]
  have h2 : (2 : ℝ) ≤ M := by exact_mod_cast hM
  rcases Nat.mod_two_eq_zero_or_one M with h | h
  · have e : ((M / 2 : ℕ) : ℝ) = M / 2 := by
      have : M = 2 * (M / 2) := by omega
      have : (M : ℝ) = 2 * ((M / 2 : ℕ) : ℝ) := by exact_mod_cast this
      linarith
    rw [if_pos h, if_pos (by omega), h, e]
    have h3 : (M : ℝ) - 1 ≠ 0 := by linarith
    have h4 : (M : ℝ) + 1 ≠ 0 := by linarith
    rw [show 1 - 4 * ((M : ℝ) / 2) ^ 2 = -((M - 1) * (M + 1)) by ring,
      show (M : ℝ) ^ 2 - 1 + ((0 : ℕ) : ℝ) = (M - 1) * (M + 1) by push_cast; ring]
    field_simp
    ring
  · have h3' : 3 ≤ M := by omega
    have h3 : (3 : ℝ) ≤ M := by exact_mod_cast h3'
    have e : ((M / 2 : ℕ) : ℝ) = (M - 1) / 2 := by
      have : M = 2 * (M / 2) + 1 := by omega
      have : (M : ℝ) = 2 * ((M / 2 : ℕ) : ℝ) + 1 := by exact_mod_cast this
      linarith
    rw [if_neg (by omega), if_neg (by omega), h, e]
    have h4 : (M : ℝ) - 2 ≠ 0 := by linarith
    have h5 : (M : ℝ) ≠ 0 := by linarith
    rw [show 1 - 4 * (((M : ℝ) - 1) / 2) ^ 2 = -(M * (M - 2)) by ring,
      show (M : ℝ) ^ 2 - 1 + ((1 : ℕ) : ℝ) = M ^ 2 by push_cast; ring]
    field_simp
    ring

/-! ### signs -/

theorem vv_nonpos {l j : ℕ} (hl : 1 ≤ l) (hj : 1 ≤ j) : vv l j ≤ 0 := by
  have hj' : (1 : ℝ) ≤ j := by exact_mod_cast hj
  have hl' : (1 : ℝ) ≤ l := by exact_mod_cast hl
  unfold vv
  split_ifs
  · exact div_nonpos_of_nonneg_of_nonpos (by norm_num) (by nlinarith)
  · have : 0 ≤ 1 / (2 * (l : ℝ) - 1) := div_nonneg zero_le_one (by linarith)
    linarith
  · exact le_rfl

theorem uF_nonpos {M j : ℕ} (hM : 2 ≤ M) (h1 : 1 ≤ j) (h2 : j < M) : uF M j ≤ 0 :=
  add_nonpos (vv_nonpos (by omega) h1) (vv_nonpos (by omega) (by omega))

theorem uC_nonpos {M j : ℕ} (hM : 2 ≤ M) (h1 : 1 ≤ j) (h2 : j < M) : uC M j ≤ 0 := by
  have hd := den_pos hM
  by_cases c : j = M / 2 ∨ j = M - M / 2
  · have : uC M j = uC M (M / 2) := by
      rcases c with rfl | rfl
      · rfl
      · exact uC_symm _ (by omega) (by omega)
    rw [this]
    have hm := uC_mid hM
    have hw : 0 < wt M (uC M) 0 := by rw [wtC_zero hM]; exact div_pos one_pos hd
    have hl : (1 : ℝ) ≤ ((M / 2 : ℕ) : ℝ) := by exact_mod_cast (by omega : 1 ≤ M / 2)
    have : 2 / (1 - 4 * ((M / 2 : ℕ) : ℝ) ^ 2) ≤ 0 :=
      div_nonpos_of_nonneg_of_nonpos (by norm_num) (by nlinarith)
    linarith
  · push Not at c
    unfold uC gg
    rw [if_neg c.1, if_neg c.2]
    have h3 := uF_nonpos hM h1 h2
    have : (-1 + 0 + 0 : ℝ) / ((M : ℝ) ^ 2 - 1 + ((M % 2 : ℕ) : ℝ)) ≤ 0 :=
      div_nonpos_of_nonpos_of_nonneg (by norm_num) hd.le
    linarith

theorem wtF_nonneg {M : ℕ} (hM : 2 ≤ M) (k : ℕ) : 0 ≤ wt M (uF M) k := by
  rw [← wtF_zero hM]
  exact wt_ge _ (fun j h1 h2 => uF_nonpos hM h1 h2) k

theorem wtC_pos {M : ℕ} (hM : 2 ≤ M) (k : ℕ) : 0 < wt M (uC M) k := by
  refine lt_of_lt_of_le ?_ (wt_ge _ (fun j h1 h2 => uC_nonpos hM h1 h2) k)
  rw [wtC_zero hM]
  exact div_pos one_pos (den_pos hM)

end Rule
end Pacal
