import Verif.Calc.Lemmas

/-! Helper lemmas for C65: the coefficients of the derivative, the interpolator of the derivative. -/

namespace Pacal
namespace Calc
open Real Finset Polynomial Polynomial.Chebyshev Nodes Rule

theorem stride_range {p : ℕ} (hp : p < 2) (w : ℕ → ℝ) : ∀ L : ℕ,
    stride p ((List.range L).map w) = (List.range ((L + 1 - p) / 2)).map fun q => w (2 * q + p) := by
  intro L
  induction L with
  | zero =>
    have : (0 + 1 - p) / 2 = 0 := by omega
    rw [this]
    simp [stride]
  | succ L ih =>
    unfold stride at *
    rw [List.range_succ, List.map_append, List.zipIdx_append, List.filter_append, List.map_append, ih]
    simp only [List.length_map, List.length_range, List.map_cons, List.map_nil, List.zipIdx_cons, List.zipIdx_nil]
    by_cases h : L % 2 = p
    · rw [show (L + 1 + 1 - p) / 2 = (L + 1 - p) / 2 + 1 by omega, List.range_succ, List.map_append]
      congr 1
      simp only [Nat.zero_add, List.map_cons, List.map_nil]
      rw [List.filter_cons_of_pos (by simpa using h)]
      simp only [List.filter_nil, List.map_cons, List.map_nil]
      rw [show 2 * ((L + 1 - p) / 2) + p = L by omega]
    · rw [show (L + 1 + 1 - p) / 2 = (L + 1 - p) / 2 by omega]
      rw [List.filter_cons_of_neg (by simpa using h)]
      simp

theorem cumsum_stride (w : ℕ → ℝ) {L i : ℕ} (hi : i < L) :
    cumsum (stride (i % 2) ((List.range L).map w)) (i / 2) = ∑ q ∈ range (i / 2 + 1), w (2 * q + i % 2) := by
  rw [stride_range (by omega)]
  unfold cumsum
  rw [← List.map_take, List.take_range, show min (i / 2 + 1) ((L + 1 - i % 2) / 2) = i / 2 + 1 by omega, sum_map_range]

/-- the coefficient sums of the derivative -/
noncomputable def dsum (c : ℕ → ℝ) (N m : ℕ) : ℝ :=
  ∑ k ∈ range (N + 1), if m < k ∧ (k - m) % 2 = 1 then 2 * (k : ℝ) * c k else 0

theorem dsum_high (c : ℕ → ℝ) {N m : ℕ} (h : N ≤ m) : dsum c N m = 0 := by
  unfold dsum
  refine sum_eq_zero fun k hk => ?_
  rw [mem_range] at hk
  rw [if_neg (by omega)]

theorem dsum_rec (c : ℕ → ℝ) {N m : ℕ} (h : m + 1 ≤ N) :
    dsum c N m = dsum c N (m + 2) + 2 * ((m + 1 : ℕ) : ℝ) * c (m + 1) := by
  unfold dsum
  have : ∀ k ∈ range (N + 1), (if m < k ∧ (k - m) % 2 = 1 then 2 * (k : ℝ) * c k else 0)
      = (if m + 2 < k ∧ (k - (m + 2)) % 2 = 1 then 2 * (k : ℝ) * c k else 0)
        + (if m + 1 = k then 2 * (k : ℝ) * c k else 0) := by
    intro k _
    by_cases h1 : m + 1 = k
    · subst h1
      rw [if_pos (by omega), if_neg (by omega), if_pos rfl, zero_add]
    · rw [if_neg h1, add_zero]
      congr 1
      simp only [eq_iff_iff]
      omega
  rw [sum_congr rfl this, sum_add_distrib, sum_ite_eq, if_pos (mem_range.2 (by omega))]

/-- the coefficients of the derivative of a Chebyshev series -/
noncomputable def dco (c : ℕ → ℝ) (N m : ℕ) : ℝ := if m = 0 then 1 / 2 * dsum c N m else dsum c N m

theorem diffCoef_ok {N : ℕ} (hN : 1 ≤ N) (c : ℕ → ℝ) :
    diffCoef ((List.range (N + 1)).map fun i => c (N - i)) = (List.range N).map fun i => dco c N (N - 1 - i) := by
  unfold diffCoef
  simp only [List.length_map, List.length_range]
  set w : ℕ → ℝ := fun i => if i < 2 then 0 else 2 * ((N + 2 - i : ℕ) : ℝ) * c (N + 2 - i) with hw
  have e : (0 : ℝ) :: 0 :: ((((List.range (N + 1)).map fun i => c (N - i)).dropLast.zipIdx.map fun p : ℝ × ℕ =>
      2 * ((N + 1 - 1 - p.2 : ℕ) : ℝ) * p.1)) = (List.range (N + 2)).map w := by
    apply List.ext_getElem
    · simp
    · intro i h1 h2
      rcases i with _ | _ | i
      · simp [hw]
      · simp [hw]
      · simp [hw, show N + 2 - (i + 1 + 1) = N - i by omega]
  have e' : (0 : ℝ) :: 0 :: ((((List.range (N + 1)).map fun i => c (N - i)).dropLast.zipIdx.map fun p : ℝ × ℕ =>
      2 * ((N + 1 - 1 - p.2 : ℕ) : ℝ) * p.1)) = (List.range (N + 2)).map w := e
  rw [e']
  have hS : ∀ i, i ≤ N + 1 → ∑ q ∈ range (i / 2 + 1), w (2 * q + i % 2) = dsum c N (N + 1 - i) := by
    intro i
    induction i using Nat.strong_induction_on with
    | _ i ih =>
      intro hi
      rcases i with _ | _ | i
      · rw [dsum_high c (by omega)]
        simp [hw]
      · rw [dsum_high c (by omega)]
        simp [hw]
      · rw [show (i + 2) / 2 + 1 = (i / 2 + 1) + 1 by omega, show (i + 2) % 2 = i % 2 by omega, sum_range_succ,
          ih i (by omega) (by omega)]
        rw [show N + 1 - (i + 2) = N - 1 - i by omega, dsum_rec c (m := N - 1 - i) (by omega)]
        rw [show N - 1 - i + 2 = N + 1 - i by omega]
        congr 1
        simp only [hw]
        rw [if_neg (by omega), show N + 2 - (2 * (i / 2 + 1) + i % 2) = N - 1 - i + 1 by omega]
  apply List.ext_getElem
  · simp
  · intro i h1 h2
    simp only [List.length_map, List.length_range] at h2
    simp only [List.getElem_drop, List.getElem_modify, List.getElem_map, List.getElem_range]
    rw [cumsum_stride w (by omega), hS _ (by omega)]
    unfold dco
    rw [show N + 1 - (2 + i) = N - 1 - i by omega]
    by_cases h : N + 1 = 2 + i
    · rw [if_pos h, if_pos (by omega)]
    · rw [if_neg h, if_neg (by omega)]

/-- the polynomials of the second kind in terms of those of the first kind -/
theorem U_sum (k : ℕ) : ∑ m ∈ range (k + 1), (if (k - m) % 2 = 0 then (if m = 0 then (1 : ℝ) else 2) else 0) • T ℝ (m : ℕ)
    = U ℝ (k : ℤ) := by
  induction k using Nat.strong_induction_on with
  | _ k ih =>
    rcases k with _ | _ | k
    · simp
    · simp [sum_range_succ]
      rw [smul_eq_C_mul]
      simp [show (Polynomial.C (2 : ℝ) : ℝ[X]) = 2 from map_ofNat Polynomial.C 2]
    · rw [sum_range_succ, sum_range_succ]
      rw [sum_congr rfl (g := fun m : ℕ =>
        (if (k - m) % 2 = 0 then (if m = 0 then (1 : ℝ) else 2) else 0) • T ℝ (m : ℕ))]
      · rw [ih k (by omega), if_neg (by omega), if_pos (by omega), if_neg (by omega)]
        push_cast
        rw [show (k : ℤ) + 1 + 1 = k + 2 by ring, U_eq_two_mul_T_add_U, smul_eq_C_mul, smul_eq_C_mul]
        rw [show (Polynomial.C (2 : ℝ) : ℝ[X]) = 2 from map_ofNat Polynomial.C 2, C_0]
        ring
      · intro m hm
        rw [mem_range] at hm
        congr 1
        rw [show (k + 1 + 1 - m) % 2 = (k - m) % 2 by omega]

theorem derivative_ser {N : ℕ} (hN : 1 ≤ N) (c : ℕ → ℝ) : derivative (ser c N) = ser (dco c N) (N - 1) := by
  unfold ser
  rw [derivative_sum, show N - 1 + 1 = N by omega]
  have h1 : ∀ k ∈ range (N + 1), derivative (c k • T ℝ (k : ℕ))
      = ∑ m ∈ range N, (if m = 0 then 1 / 2 * (if m < k ∧ (k - m) % 2 = 1 then 2 * (k : ℝ) * c k else 0)
          else (if m < k ∧ (k - m) % 2 = 1 then 2 * (k : ℝ) * c k else 0)) • T ℝ (m : ℕ) := by
    intro k hk
    rw [mem_range] at hk
    rw [derivative_smul, T_derivative_eq_U]
    rcases k with _ | k
    · simp
    · rw [show (((k + 1 : ℕ) : ℤ) - 1) = (k : ℤ) by push_cast; ring, ← U_sum k]
      rw [show ((((k + 1 : ℕ) : ℤ) : ℝ[X])) = C ((k + 1 : ℕ) : ℝ) by push_cast; simp]
      rw [← smul_eq_C_mul, smul_smul, smul_sum]
      refine Eq.trans ?_ (sum_subset (s₁ := range (k + 1)) (range_subset_range.2 (by omega)) ?_)
      · refine sum_congr rfl fun m hm => ?_
        rw [mem_range] at hm
        rw [smul_smul]
        congr 1
        by_cases hp : (k - m) % 2 = 0
        · rw [if_pos hp, if_pos (by omega : m < k + 1 ∧ (k + 1 - m) % 2 = 1)]
          split_ifs <;> ring
        · rw [if_neg hp, if_neg (by omega : ¬ (m < k + 1 ∧ (k + 1 - m) % 2 = 1))]
          split_ifs <;> ring
      · intro m _ hm
        rw [mem_range] at hm
        rw [if_neg (by omega : ¬ (m < k + 1 ∧ (k + 1 - m) % 2 = 1))]
        simp
  rw [sum_congr rfl h1, sum_comm]
  refine sum_congr rfl fun m _ => ?_
  rw [← sum_smul]
  congr 1
  unfold dco dsum
  split_ifs with h
  · rw [mul_sum]
  · rfl

/-- changing the last coefficient of a series -/
theorem ser_last (a : ℕ → ℝ) (N : ℕ) (f : ℝ → ℝ) :
    ser (fun k => if k = N then f (a k) else a k) N = ser a N + (f (a N) - a N) • T ℝ (N : ℕ) := by
  unfold ser
  rw [sum_range_succ, sum_range_succ]
  simp only [if_true]
  rw [sum_congr rfl (g := fun k : ℕ => a k • T ℝ (k : ℕ))]
  · rw [sub_smul]
    abel
  · intro k hk
    rw [mem_range] at hk
    rw [if_neg (by omega)]

theorem dco_last (c : ℕ → ℝ) {N : ℕ} (hN : 2 ≤ N) : dco c N (N - 1) = 2 * (N : ℝ) * c N := by
  unfold dco
  rw [if_neg (by omega), dsum_rec c (m := N - 1) (by omega), dsum_high c (by omega), show N - 1 + 1 = N by omega, zero_add]

theorem degree_ser (a : ℕ → ℝ) (N : ℕ) : (ser a N).degree < (N + 1 : ℕ) := by
  unfold ser
  rw [degree_lt_iff_coeff_zero]
  intro m hm
  rw [finsetSum_coeff]
  refine sum_eq_zero fun k hk => ?_
  rw [mem_range] at hk
  rw [coeff_smul, coeff_eq_zero_of_natDegree_lt, smul_zero]
  rw [natDegree_T, Int.natAbs_natCast]
  omega

/-- the affine maps between the standard interval and `[a, b]` -/
noncomputable def toStd (a b : ℝ) : ℝ[X] := C (2 / (b - a)) * X + C (-(a + b) / (b - a))
noncomputable def ofStd (a b : ℝ) : ℝ[X] := C ((b - a) / 2) * X + C ((a + b) / 2)

theorem eval_toStd (a b x : ℝ) : (toStd a b).eval x = (2 * x - a - b) / (b - a) := by
  simp [toStd]; ring
theorem eval_ofStd (a b x : ℝ) : (ofStd a b).eval x = (b - a) / 2 * x + (a + b) / 2 := by simp [ofStd]

theorem toStd_ofStd {a b : ℝ} (hab : a < b) : (ofStd a b).comp (toStd a b) = X := by
  have : b - a ≠ 0 := (sub_pos.2 hab).ne'
  apply Polynomial.funext
  intro x
  rw [eval_comp, eval_ofStd, eval_toStd, eval_X]
  field_simp
  ring

theorem ofStd_toStd {a b : ℝ} (hab : a < b) : (toStd a b).comp (ofStd a b) = X := by
  have : b - a ≠ 0 := (sub_pos.2 hab).ne'
  apply Polynomial.funext
  intro x
  rw [eval_comp, eval_ofStd, eval_toStd, eval_X]
  field_simp
  ring

theorem degree_comp_lt {p q : ℝ[X]} (hq : q.natDegree ≤ 1) {n : ℕ} (h : p.degree < n) : (p.comp q).degree < n := by
  rcases eq_or_ne (p.comp q) 0 with h0 | h0
  · rw [h0, degree_zero]; exact WithBot.bot_lt_coe n
  · have hp : p ≠ 0 := by rintro rfl; simp at h0
    rw [degree_eq_natDegree hp] at h
    rw [degree_eq_natDegree h0]
    have h1 : p.natDegree < n := by exact_mod_cast h
    have h2 : (p.comp q).natDegree ≤ p.natDegree * q.natDegree := natDegree_comp_le
    have h3 : p.natDegree * q.natDegree ≤ p.natDegree * 1 := Nat.mul_le_mul_left _ hq
    exact_mod_cast (by omega : (p.comp q).natDegree < n)

theorem natDegree_toStd (a b : ℝ) : (toStd a b).natDegree ≤ 1 := natDegree_linear_le
theorem natDegree_ofStd (a b : ℝ) : (ofStd a b).natDegree ≤ 1 := natDegree_linear_le

theorem node_std (a b t : ℝ) : point a b t = (ofStd a b).eval (-cos t) := by
  rw [eval_ofStd]; unfold point; ring

theorem cheb_map {N : ℕ} (hN : 1 ≤ N) (a b : ℝ) (f : ℝ → ℝ) : (cheb (N + 1) a b).map f
    = (List.range (N + 1)).map fun j : ℕ => f ((ofStd a b).eval (-cos ((j : ℝ) * π / N))) := by
  rw [cheb_eq (by omega), List.map_map]
  apply List.map_congr_left
  intro j _
  simp only [Function.comp, nodeAt]
  rw [← node_std]
  congr 3
  push_cast
  ring

/-- an interpolator built on a Chebyshev grid from the values of a polynomial evaluates that polynomial -/
theorem onCheb_at {N : ℕ} (hN : 1 ≤ N) {a b : ℝ} (hab : a < b) (q : ℝ[X]) (hq : q.degree < (N + 1 : ℕ)) (x : ℝ) :
    (onCheb a b ((List.range (N + 1)).map fun j : ℕ => q.eval (-cos ((j : ℝ) * π / N)))).at x
      = .ok (q.eval ((2 * x - a - b) / (b - a))) := by
  have h := C41_reproduces (n := N + 1) (by omega) hab (q.comp (toStd a b))
    (by exact_mod_cast degree_comp_lt (natDegree_toStd a b) hq) x
  rw [eval_comp, eval_toStd] at h
  rw [← h, cheb_map hN]
  unfold onCheb Bary.at
  simp only [List.length_map, List.length_range]
  congr 1
  apply List.map_congr_left
  intro j _
  have h1 := congrArg (fun r => r.eval (-cos ((j : ℝ) * π / N))) (show (toStd a b).comp (ofStd a b) = X by
    have : b - a ≠ 0 := (sub_pos.2 hab).ne'
    apply Polynomial.funext
    intro x
    rw [eval_comp, eval_ofStd, eval_toStd, eval_X]
    field_simp
    ring)
  simp only [eval_comp, eval_X] at h1
  rw [eval_comp, h1]

theorem reverse_cos {N : ℕ} (hN : 1 ≤ N) (q : ℝ[X]) (f : ℝ → ℝ) :
    ((List.range (N + 1)).map fun j : ℕ => f (q.eval (cos ((j : ℝ) * π / N)))).reverse
      = (List.range (N + 1)).map fun j : ℕ => f (q.eval (-cos ((j : ℝ) * π / N))) := by
  apply List.ext_getElem
  · simp
  · intro i h1 h2
    simp only [List.length_map, List.length_range] at h2
    simp only [List.getElem_reverse, List.getElem_map, List.getElem_range, List.length_map, List.length_range]
    rw [show N + 1 - 1 - i = N - i by omega]
    have := neg_cos_node hN (j := N - i) (by omega)
    rw [show N - (N - i) = i by omega] at this
    rw [this]

theorem cheb_ends {n : ℕ} (hn : 2 ≤ n) (a b : ℝ) : (cheb n a b).head? = some a ∧ (cheb n a b).getLast? = some b := by
  obtain ⟨M, rfl⟩ : ∃ M, n = M + 2 := ⟨n - 2, by omega⟩
  rw [cheb_eq hn]
  constructor
  · rw [List.range_succ_eq_map]
    simp [nodeAt, point_zero]
  · rw [List.range_succ, List.map_append]
    have := nodeAt_last hn a b
    rw [show M + 2 - 1 = M + 1 from rfl] at this
    simp [this]

/-- the whole computation, on the standard interval -/
theorem diff2_ser {N : ℕ} (hN : 2 ≤ N) {a b : ℝ} (hab : a < b) (α : ℕ → ℝ) (ws : List ℝ) (I : Bary)
    (hI : I = ⟨cheb (N + 1) a b, (List.range (N + 1)).map fun j : ℕ => (ser α N).eval (-cos ((j : ℝ) * π / N)), ws⟩) :
    ∃ D, diff2 I = .ok D ∧ (D.xs = cheb N a b ∧ D.ys.length = N) ∧ ∀ x, D.at x = .ok (2 / (b - a) * (derivative (ser α N) +
      α N • (derivative (T ℝ (N : ℕ)) - (2 * (N : ℝ)) • T ℝ ((N - 1 : ℕ) : ℤ))).eval ((2 * x - a - b) / (b - a))) := by
  subst hI
  obtain ⟨h0, h1⟩ := cheb_ends (n := N + 1) (by omega) a b
  have hba : b - a ≠ 0 := (sub_pos.2 hab).ne'
  unfold diff2
  simp only [h0, h1]
  rw [chebt2_ok (by omega)]
  simp only [Bind.bind, Except.bind]
  set c : ℕ → ℝ := fun k => if k = N then 2 * α k else α k with hc
  have e : ((List.range (N + 1)).map fun i => (if i = 0 then 2 else 1) * α (N - i))
      = (List.range (N + 1)).map fun i => c (N - i) := by
    apply List.map_congr_left
    intro i hi
    rw [List.mem_range] at hi
    simp only [hc]
    by_cases h : i = 0
    · subst h; simp
    · rw [if_neg h, if_neg (by omega), one_mul]
  rw [e, diffCoef_ok (by omega)]
  obtain ⟨M, rfl⟩ : ∃ M, N = M + 1 := ⟨N - 1, by omega⟩
  rw [show M + 1 - 1 = M by omega, ichebt2_ok (by omega)]
  refine ⟨_, rfl, by simp [onCheb], fun x => ?_⟩
  set Q := ser (fun k => if k = M then dco c (M + 1) k / 2 else dco c (M + 1) k) M with hQ
  rw [List.map_map]
  have hr := reverse_cos (N := M) (by omega) Q (· / ((b - a) * (1 / 2)))
  have hr' : (List.map ((fun x => x / ((b - a) * (1 / 2))) ∘ fun j : ℕ => Q.eval (cos ((j : ℝ) * π / M)))
      (List.range (M + 1))).reverse
      = (List.range (M + 1)).map fun j : ℕ => (((2 / (b - a)) • Q).eval (-cos ((j : ℝ) * π / M))) := by
    rw [show ((fun x => x / ((b - a) * (1 / 2))) ∘ fun j : ℕ => Q.eval (cos ((j : ℝ) * π / M)))
      = fun j : ℕ => Q.eval (cos ((j : ℝ) * π / M)) / ((b - a) * (1 / 2)) from rfl]
    rw [hr]
    apply List.map_congr_left
    intro j _
    rw [eval_smul, smul_eq_mul]
    field_simp
  rw [hr', onCheb_at (by omega) hab _ ?_]
  · rw [eval_smul, smul_eq_mul]
    congr 3
    have hl := ser_last (dco c (M + 1)) M (· / 2)
    rw [hQ, hl]
    have hd := derivative_ser (N := M + 1) (by omega) c
    rw [show M + 1 - 1 = M from rfl] at hd
    rw [← hd]
    have hcs : ser c (M + 1) = ser α (M + 1) + (2 * α (M + 1) - α (M + 1)) • T ℝ ((M + 1 : ℕ) : ℤ) :=
      ser_last α (M + 1) (2 * ·)
    rw [hcs]
    have hdl := dco_last c (N := M + 1) (by omega)
    rw [show M + 1 - 1 = M from rfl] at hdl
    rw [hdl]
    have hcN : c (M + 1) = 2 * α (M + 1) := by simp [hc]
    rw [hcN, derivative_add, derivative_smul, smul_sub, smul_smul]
    rw [show (2 * α (M + 1) - α (M + 1)) = α (M + 1) by ring]
    rw [show (2 * ((M + 1 : ℕ) : ℝ) * (2 * α (M + 1)) / 2 - 2 * ((M + 1 : ℕ) : ℝ) * (2 * α (M + 1)))
      = -(α (M + 1) * (2 * ((M + 1 : ℕ) : ℝ))) by ring, neg_smul]
    abel
  · refine lt_of_le_of_lt (degree_smul_le _ _) ?_
    rw [hQ]
    exact degree_ser _ _

end Calc
end Pacal
