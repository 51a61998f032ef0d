import Verif.Rule.Loops

/-!
# Property C64: the quadrature rules are exact for polynomials and converge

The rules are those of `clenshaw_coefficients` and `fejer2_coefficients` at the Chebyshev points; `apply` is the
weighted sum (see `Verif.Rule.Spec`).
-/

set_option linter.unusedVariables false

namespace Pacal
open Rule Mon Nodes Polynomial Filter

/-- **C64, Clenshaw–Curtis.** For every `n ≥ 3` there are `n` coefficients, and the rule integrates every
polynomial of degree below `n` over every interval exactly. -/
theorem C64_clenshaw_exact (n : ℕ) (hn : 3 ≤ n) : ∃ c, clenshaw n = .ok c ∧ c.length = n ∧
    ∀ p : ℝ[X], p.natDegree < n → ∀ a b : ℝ,
      apply (fun x => p.eval x) (cheb n a b) c a b = ∫ x in a..b, p.eval x := by
  obtain ⟨M, rfl⟩ : ∃ M, n = M + 1 := ⟨n - 1, by omega⟩
  have hM : 2 ≤ M := by omega
  refine ⟨_, clenshaw_ok hM, by simp, fun p hp a b => ?_⟩
  rw [apply_clenshaw hM]
  exact QC_poly hM p (by omega) a b

/-- **C64, Fejér.** For every `n ≥ 3` there are `n - 2` coefficients, one for each inner Chebyshev point, and the
rule integrates every polynomial of degree at most `n - 3` exactly (`n - 2` if `n` is odd). -/
theorem C64_fejer_exact (n : ℕ) (hn : 3 ≤ n) : ∃ c, fejer2 n = .ok c ∧ c.length = n - 2 ∧
    ∀ p : ℝ[X], (p.natDegree + 3 ≤ n ∨ (n % 2 = 1 ∧ p.natDegree + 2 ≤ n)) → ∀ a b : ℝ,
      apply (fun x => p.eval x) (inner (cheb n a b)) c a b = ∫ x in a..b, p.eval x := by
  obtain ⟨M, rfl⟩ : ∃ M, n = M + 1 := ⟨n - 1, by omega⟩
  have hM : 2 ≤ M := by omega
  refine ⟨_, fejer2_ok hM, by simp, fun p hp a b => ?_⟩
  rw [apply_fejer hM]
  exact QF_poly hM p (by omega) a b

/-- Simpson's rule: three Clenshaw–Curtis nodes -/
example : ∃ c, clenshaw 3 = .ok c ∧ apply (fun x => (X ^ 2 : ℝ[X]).eval x) (cheb 3 0 3) c 0 3 = 9 := by
  obtain ⟨c, h1, -, h2⟩ := C64_clenshaw_exact 3 le_rfl
  refine ⟨c, h1, ?_⟩
  rw [h2 _ (by simp)]
  simp only [eval_pow, eval_X, integral_pow]
  norm_num

/-- **C64, fewer than three nodes** are refused by both functions. -/
theorem C64_small (n : ℕ) (hn : n < 3) : fejer2 n = .error .index ∧ clenshaw n = .error .index := small_error hn

/-- **C64, weights.** All coefficients are nonnegative (those of Clenshaw–Curtis positive) and sum to 2, the length
of the standard interval. -/
theorem C64_weights (n : ℕ) (hn : 3 ≤ n) (c d : List ℝ) (hc : clenshaw n = .ok c) (hd : fejer2 n = .ok d) :
    (∀ w ∈ c, 0 < w) ∧ c.sum = 2 ∧ (∀ w ∈ d, 0 ≤ w) ∧ d.sum = 2 := by
  obtain ⟨M, rfl⟩ : ∃ M, n = M + 1 := ⟨n - 1, by omega⟩
  have hM : 2 ≤ M := by omega
  rw [clenshaw_ok hM] at hc
  rw [fejer2_ok hM] at hd
  cases hc
  cases hd
  refine ⟨?_, ?_, ?_, ?_⟩
  · intro w hw
    obtain ⟨k, _, rfl⟩ := List.mem_map.1 hw
    exact wtC_pos hM k
  · rw [sum_map_range, sumC hM]
  · intro w hw
    obtain ⟨k, _, rfl⟩ := List.mem_map.1 hw
    exact wtF_nonneg hM _
  · rw [sum_map_range]
    have h := sumF hM
    rw [Finset.sum_range_succ, wt_last (by omega), wtF_zero hM] at h
    obtain ⟨m, rfl⟩ : ∃ m, M = m + 1 := ⟨M - 1, by omega⟩
    rw [Finset.sum_range_succ', wtF_zero hM] at h
    rw [Nat.add_sub_cancel]
    linarith

/-- **C64, error bound.** For every integrand (integrable on `[a, b]`), if some polynomial of degree at most `n - 3`
stays within `δ` of it on `[a, b]`, both rules with `n` nodes are within `2 (b - a) δ` of the integral. -/
theorem C64_error (n : ℕ) (hn : 3 ≤ n) (c d : List ℝ) (hc : clenshaw n = .ok c) (hd : fejer2 n = .ok d) {a b : ℝ}
    (hab : a ≤ b) (f : ℝ → ℝ) (hf : IntervalIntegrable f MeasureTheory.volume a b) (p : ℝ[X])
    (hp : p.natDegree + 3 ≤ n) (δ : ℝ) (hδ : ∀ x ∈ Set.Icc a b, |f x - p.eval x| ≤ δ) :
    |apply f (cheb n a b) c a b - ∫ x in a..b, f x| ≤ 2 * (b - a) * δ ∧
    |apply f (inner (cheb n a b)) d a b - ∫ x in a..b, f x| ≤ 2 * (b - a) * δ := by
  obtain ⟨M, rfl⟩ : ∃ M, n = M + 1 := ⟨n - 1, by omega⟩
  have hM : 2 ≤ M := by omega
  rw [clenshaw_ok hM] at hc
  rw [fejer2_ok hM] at hd
  cases hc
  cases hd
  rw [apply_clenshaw hM, apply_fejer hM]
  exact ⟨Q_error (fun k => (wtC_pos hM k).le) (sumC hM) hab hf p (QC_poly hM p (by omega) a b) hδ,
    Q_error (wtF_nonneg hM) (sumF hM) hab hf p (QF_poly hM p (by omega) a b) hδ⟩

/-- **C64, convergence.** For every function continuous on `[a, b]` both rules converge to the integral when the
number of nodes grows. -/
theorem C64_converges {a b : ℝ} (hab : a ≤ b) (f : ℝ → ℝ) (hf : ContinuousOn f (Set.Icc a b)) :
    Tendsto (fun n => apply f (cheb n a b) (coefOf clenshaw n) a b) atTop (nhds (∫ x in a..b, f x)) ∧
    Tendsto (fun n => apply f (inner (cheb n a b)) (coefOf fejer2 n) a b) atTop (nhds (∫ x in a..b, f x)) := by
  have hi : IntervalIntegrable f MeasureTheory.volume a b := hf.intervalIntegrable_of_Icc hab
  have key : ∀ ε > 0, ∃ N, ∀ n ≥ N,
      |apply f (cheb n a b) (coefOf clenshaw n) a b - ∫ x in a..b, f x| < ε ∧
      |apply f (inner (cheb n a b)) (coefOf fejer2 n) a b - ∫ x in a..b, f x| < ε := by
    intro ε hε
    have hb : 0 < 2 * (b - a) + 1 := by linarith
    obtain ⟨p, hp⟩ := exists_near hf (div_pos hε hb)
    refine ⟨p.natDegree + 3, fun n hn => ?_⟩
    obtain ⟨c, hc, -, -⟩ := C64_clenshaw_exact n (by omega)
    obtain ⟨d, hd, -, -⟩ := C64_fejer_exact n (by omega)
    have e1 : coefOf clenshaw n = c := by unfold coefOf; rw [hc]
    have e2 : coefOf fejer2 n = d := by unfold coefOf; rw [hd]
    rw [e1, e2]
    have h := C64_error n (by omega) c d hc hd hab f hi p hn _ hp
    have hlt : 2 * (b - a) * (ε / (2 * (b - a) + 1)) < ε := by
      rw [mul_div_assoc', div_lt_iff₀ hb]
      nlinarith
    exact ⟨lt_of_le_of_lt h.1 hlt, lt_of_le_of_lt h.2 hlt⟩
  constructor <;> rw [Metric.tendsto_atTop] <;> intro ε hε <;> obtain ⟨N, hN⟩ := key ε hε
  · exact ⟨N, fun n hn => by rw [Real.dist_eq]; exact (hN n hn).1⟩
  · exact ⟨N, fun n hn => by rw [Real.dist_eq]; exact (hN n hn).2⟩

/-- the absolute value is not a polynomial, and the rules converge for it -/
example : Tendsto (fun n => apply (fun x => |x|) (cheb n (-1) 1) (coefOf clenshaw n) (-1) 1) atTop
    (nhds (∫ x in (-1 : ℝ)..1, |x|)) := (C64_converges (by norm_num) _ (by fun_prop)).1

/-- **C64, the caches** never change an answer: in any history of calls every answer is the freshly computed one. -/
theorem C64_cache (compute : ℕ → Except PyErr (List ℝ)) (ns : List ℕ) :
    history compute [] ns = ns.map compute := by
  have aux : ∀ (ns : List ℕ) (cache : List (ℕ × List ℝ)), (∀ q ∈ cache, compute q.1 = .ok q.2) →
      history compute cache ns = ns.map compute := by
    intro ns
    induction ns with
    | nil => intro cache _; rfl
    | cons n ns ih =>
      intro cache hc
      have h1 : (cached compute cache n).1 = compute n ∧
          ∀ q ∈ (cached compute cache n).2, compute q.1 = .ok q.2 := by
        unfold cached
        split
        · rename_i c h
          obtain ⟨l1, l2, rfl, -⟩ := List.lookup_eq_some_iff.1 h
          exact ⟨(hc (n, c) (by simp)).symm, hc⟩
        · split
          · rename_i c h
            refine ⟨h.symm, fun q hq => ?_⟩
            rcases List.mem_cons.1 hq with rfl | hq
            · exact h
            · exact hc q hq
          · rename_i e h
            exact ⟨h.symm, hc⟩
      show (cached compute cache n).1 :: history compute (cached compute cache n).2 ns = _
      rw [h1.1, ih _ h1.2]
      rfl
  exact aux ns [] (by simp)

/-! ### the integrators -/

/-- **C64, `integrate_fejer2`.** For every interval, tolerance settings, error limit and node limit of at least 129:
a polynomial of degree at most 63 is integrated exactly and the reported error is zero; for degree up to 127 the
value is still exact. -/
theorem C64_fejer2_polynomial (big decr : ℝ) (hbig : 0 ≤ big) (hd : decr ≤ 1) (par : Par ℝ) (p : ℝ[X])
    (hp : p.natDegree ≤ 127) (a b : ℝ) (maxn fuel : ℕ) (hm : 129 ≤ maxn) (hf : maxn ≤ fuel) :
    ∃ e ests, integrateFejer2 big decr par (fejerGrid a b) (fun x => p.eval x) a b maxn fuel
        = .ok (∫ x in a..b, p.eval x, e, ests) ∧ (p.natDegree ≤ 63 → e = 0) := by
  obtain ⟨j, ests, h, -, -⟩ := C37_integrate big decr hbig hd par (fejerGrid a b) (fejerGrid_ok a b)
    (fun x => p.eval x) a b maxn hm fuel hf
  have key : ∀ i, p.natDegree < 64 * 2 ^ i →
      quad (fejerGrid a b) (fun x => p.eval x) a b (stepN i) = ∫ x in a..b, p.eval x := by
    intro i hi
    have := stepN_ge i
    rw [quad_fejer (by omega)]
    have h2 : stepN i - 1 = 64 * 2 ^ i := by unfold stepN; omega
    unfold estF
    rw [h2]
    exact QF_poly (by omega) p (by omega) a b
  have h2 : p.natDegree < 64 * 2 ^ (j + 1) := by
    have := Nat.one_le_two_pow (n := j)
    rw [pow_succ]; omega
  rw [key _ h2] at h
  refine ⟨_, ests, h, fun h63 => ?_⟩
  rw [key j (by have := Nat.one_le_two_pow (n := j); omega), sub_self, abs_zero]

/-- **C64, accuracy of `integrate_fejer2`.** Whatever the tolerances and whenever the refinement stops: if some
polynomial of degree at most 127 stays within `δ` of the integrand on `[a, b]`, the returned value is within
`2 (b - a) δ` of the integral. -/
theorem C64_fejer2_accuracy (big decr : ℝ) (hbig : 0 ≤ big) (hd : decr ≤ 1) (par : Par ℝ) {a b : ℝ} (hab : a ≤ b)
    (f : ℝ → ℝ) (hi : IntervalIntegrable f MeasureTheory.volume a b) (p : ℝ[X]) (hp : p.natDegree ≤ 127) (δ : ℝ)
    (hδ : ∀ x ∈ Set.Icc a b, |f x - p.eval x| ≤ δ) (maxn fuel : ℕ) (hm : 129 ≤ maxn) (hf : maxn ≤ fuel) :
    ∃ I e ests, integrateFejer2 big decr par (fejerGrid a b) f a b maxn fuel = .ok (I, e, ests) ∧
      |I - ∫ x in a..b, f x| ≤ 2 * (b - a) * δ := by
  obtain ⟨j, ests, h, -, -⟩ := C37_integrate big decr hbig hd par (fejerGrid a b) (fejerGrid_ok a b)
    f a b maxn hm fuel hf
  refine ⟨_, _, ests, h, ?_⟩
  have := stepN_ge (j + 1)
  rw [quad_fejer (by omega)]
  have h2 : stepN (j + 1) - 1 = 64 * 2 ^ (j + 1) := by unfold stepN; omega
  have h3 : 128 ≤ 64 * 2 ^ (j + 1) := by
    have := Nat.one_le_two_pow (n := j)
    rw [pow_succ]; omega
  unfold estF
  rw [h2]
  exact Q_error (wtF_nonneg (by omega)) (sumF (by omega)) hab hi p (QF_poly (by omega) p (by omega) a b) hδ

/-- the default parameters (params.py:70-77), used in the examples -/
noncomputable def C64par : Par ℝ := ⟨16 / 2 ^ 52, 16 / 2 ^ 52, 10000, 2, 1 / 2, false⟩

example : ∃ e ests, integrateFejer2 1000 (3 / 4) C64par (fejerGrid (-1) 2) (fun x => (X ^ 100 : ℝ[X]).eval x) (-1) 2
    1024 1024 = .ok (∫ x in (-1 : ℝ)..2, (X ^ 100 : ℝ[X]).eval x, e, ests) := by
  obtain ⟨e, ests, h, -⟩ := C64_fejer2_polynomial 1000 (3 / 4) (by norm_num) (by norm_num) C64par (X ^ 100) (by simp)
    (-1) 2 1024 1024 (by norm_num) le_rfl
  exact ⟨e, ests, h⟩

/-- **C64, vector version.** For a function with at least one component and a node limit of at least 129, the
integrator returns one number per component; each is as accurate as for the scalar version, and it is exact with
reported error zero if all components are polynomials of degree at most 63. -/
theorem C64_vector (par : Par ℝ) (fv : List (ℝ → ℝ)) (hne : fv ≠ []) {a b : ℝ} (hab : a ≤ b)
    (maxn fuel : ℕ) (hm : 129 ≤ maxn) (hf : maxn ≤ fuel) :
    ∃ I e, integrateVector par fv a b maxn fuel = .ok (I, e) ∧ I.length = fv.length ∧
      (∀ i (h : i < fv.length) (h' : i < I.length), IntervalIntegrable fv[i] MeasureTheory.volume a b →
        ∀ (p : ℝ[X]) (δ : ℝ), p.natDegree ≤ 127 → (∀ x ∈ Set.Icc a b, |fv[i] x - p.eval x| ≤ δ) →
        |I[i] - ∫ x in a..b, fv[i] x| ≤ 2 * (b - a) * δ) ∧
      ((∀ f ∈ fv, ∃ p : ℝ[X], p.natDegree ≤ 63 ∧ f = fun x => p.eval x) →
        I = fv.map (fun f => ∫ x in a..b, f x) ∧ e = 0) := by
  obtain ⟨s, j, hs, hend⟩ := vectorLoop_spec par hne a b hm fuel 0 {} (vInv_start fv a b) (by omega)
    (by unfold stepN; omega)
  obtain ⟨e, he, hch⟩ := hend.err
  have hs' : vectorLoop par fv a b maxn fuel 65 {} = .ok s := hs
  have hpow := Nat.one_le_two_pow (n := j)
  have h3 : 128 ≤ 64 * 2 ^ (j + 1) := by rw [pow_succ]; omega
  have hn : ∀ i, stepN i - 1 = 64 * 2 ^ i := fun i => by unfold stepN; omega
  refine ⟨estV fv a b (stepN (j + 1)), e, ?_, by simp [estV], ?_, ?_⟩
  · unfold integrateVector
    rw [hs']
    simp only [Bind.bind, Except.bind, hend.val, he]
  · intro i h h' hi p δ hp hδ
    have e1 : (estV fv a b (stepN (j + 1)))[i] = estF fv[i] a b (stepN (j + 1)) := by simp [estV]
    rw [e1]
    unfold estF
    rw [hn]
    exact Q_error (wtF_nonneg (by omega)) (sumF (by omega)) hab hi p (QF_poly (by omega) p (by omega) a b) hδ
  · intro hpoly
    have key : ∀ i, estV fv a b (stepN i) = fv.map fun f => ∫ x in a..b, f x := by
      intro i
      unfold estV
      apply List.map_congr_left
      intro f hf
      obtain ⟨p, hp, rfl⟩ := hpoly f hf
      have := Nat.one_le_two_pow (n := i)
      unfold estF
      rw [hn]
      exact QF_poly (by omega) p (by omega) a b
    refine ⟨key _, ?_⟩
    obtain ⟨i, h1, h2, rfl⟩ := hch.att
    have : ∀ (x y : List ℝ) (hxy : x = y) (h1 : i < x.length) (h2 : i < y.length), |x[i] - y[i]| = 0 := by
      rintro x y rfl _ _; simp
    exact this _ _ ((key _).trans (key _).symm) h1 h2

example : ∃ I e, integrateVector C64par [fun x => (X : ℝ[X]).eval x, fun x => (X ^ 2 : ℝ[X]).eval x] 0 1 1024 1024
    = .ok (I, e) ∧ e = 0 := by
  obtain ⟨I, e, h, -, -, h2⟩ := C64_vector C64par [fun x => (X : ℝ[X]).eval x, fun x => (X ^ 2 : ℝ[X]).eval x]
    (by simp) (a := 0) (b := 1) (by norm_num) 1024 1024 (by norm_num) le_rfl
  exact ⟨I, e, h, (h2 (by
    intro f hf
    simp only [List.mem_cons, List.not_mem_nil, or_false] at hf
    rcases hf with rfl | rfl
    · exact ⟨X, by simp, rfl⟩
    · exact ⟨X ^ 2, by simp, rfl⟩)).2⟩

/-- **C64, `integrate_clenshaw` without debug plots.** With a node limit of at least 5: the returned value is that
of one of its rules with at least 5 nodes; it is exact with reported error zero for polynomials of degree at most
2, and within `2 (b - a) δ` of the integral of a function that stays within `δ` of a polynomial of degree at
most 4. -/
theorem C64_clenshaw_integrate (par : Par ℝ) (f : ℝ → ℝ) (a b : ℝ) (maxn fuel : ℕ) (hm : 5 ≤ maxn)
    (hf : maxn ≤ fuel) : ∃ n I e, integrateClenshaw par f a b maxn fuel false = .ok (I, e) ∧
      5 ≤ n ∧ n ≤ maxn ∧ I = apply f (cheb n a b) (coefOf clenshaw n) a b ∧
      (∀ p : ℝ[X], p.natDegree ≤ 2 → f = (fun x => p.eval x) → I = (∫ x in a..b, f x) ∧ e = 0) ∧
      (∀ (p : ℝ[X]) (δ : ℝ), p.natDegree ≤ 4 → a ≤ b → IntervalIntegrable f MeasureTheory.volume a b →
        (∀ x ∈ Set.Icc a b, |f x - p.eval x| ≤ δ) → |I - ∫ x in a..b, f x| ≤ 2 * (b - a) * δ) := by
  obtain ⟨n, s, j, hs, hend⟩ := clenshawLoop_spec par f a b maxn fuel 0 {} (cInv_start f a b) (by omega)
    (by omega) (by unfold stepC; omega)
  have hs' : clenshawLoop par f a b maxn fuel 3 {} = .ok (n, s) := hs
  have hj : 1 ≤ j := by
    rcases hend.n_eq with h | ⟨h, h'⟩
    · exact h.2
    · by_contra hj
      have : j = 0 := by omega
      subst this
      rw [h] at h'
      unfold stepC at h'
      omega
  obtain ⟨i, rfl⟩ : ∃ i, j = i + 1 := ⟨j - 1, by omega⟩
  have hpow := Nat.one_le_two_pow (n := i)
  have h4 : 4 ≤ 2 ^ (i + 1 + 1) := by rw [pow_succ, pow_succ]; omega
  have h5 : 5 ≤ stepC (i + 1) := by unfold stepC; omega
  refine ⟨stepC (i + 1), estC f a b (stepC (i + 1)), |estC f a b (stepC (i + 1)) - estC f a b (stepC i)|, ?_, h5,
    hend.le, ?_, ?_, ?_⟩
  · unfold integrateClenshaw
    rw [hs']
    simp [Bind.bind, Except.bind, hend.val, hend.err (by omega)]
  · obtain ⟨M, hM⟩ : ∃ M, stepC (i + 1) = M + 1 := ⟨stepC (i + 1) - 1, by omega⟩
    rw [hM]
    have e : coefOf clenshaw (M + 1) = (List.range (M + 1)).map (wt M (uC M)) := by
      unfold coefOf; rw [clenshaw_ok (by omega)]
    rw [e, apply_clenshaw (by omega)]
    rfl
  · rintro p hp rfl
    have key : ∀ i, estC (fun x => p.eval x) a b (stepC i) = ∫ x in a..b, p.eval x := by
      intro i
      have h3 := stepC_ge i
      unfold estC
      exact QC_poly (by omega) p (by omega) a b
    rw [key, key, sub_self, abs_zero]
    exact ⟨rfl, rfl⟩
  · intro p δ hp hab hi hδ
    unfold estC
    exact Q_error (fun k => (wtC_pos (by omega) k).le) (sumC (by omega)) hab hi p
      (QC_poly (by omega) p (by omega) a b) hδ

/-- **C64, finding (small limits):** with a node limit below 5 `integrate_clenshaw`, and with a node limit below 129
`integrate_fejer2_vector`, reach their `return` statement without a value for the error: `UnboundLocalError`. -/
theorem C64_finding_small_limit (par : Par ℝ) (f : ℝ → ℝ) (fv : List (ℝ → ℝ)) (a b : ℝ) (maxn fuel : ℕ)
    (hf : maxn ≤ fuel) :
    (maxn < 5 → integrateClenshaw par f a b maxn fuel false = .error .unbound) ∧
    (maxn < 129 → integrateVector par fv a b maxn fuel = .error .unbound) := by
  constructor
  · intro hm
    by_cases h3 : 3 ≤ maxn
    · obtain ⟨n, s, j, hs, hend⟩ := clenshawLoop_spec par f a b maxn fuel 0 {} (cInv_start f a b) (by omega)
        (by omega) (by unfold stepC; omega)
      have hs' : clenshawLoop par f a b maxn fuel 3 {} = .ok (n, s) := hs
      have hj : j = 0 := by
        by_contra hj
        obtain ⟨i, rfl⟩ : ∃ i, j = i + 1 := ⟨j - 1, by omega⟩
        have := hend.le
        have := Nat.one_le_two_pow (n := i)
        unfold stepC at *
        rw [pow_succ, pow_succ] at *
        omega
      unfold integrateClenshaw
      rw [hs']
      simp [Bind.bind, Except.bind, hend.err0 hj]
    · unfold integrateClenshaw clenshawLoop
      rw [if_neg h3]
      simp [Bind.bind, Except.bind]
  · intro hm
    by_cases h65 : 65 ≤ maxn
    · obtain ⟨k, rfl⟩ : ∃ k, fuel = k + 1 := ⟨fuel - 1, by omega⟩
      obtain ⟨c, ds, hc, hd, hq⟩ := dots_ok (n := stepN 0) (by unfold stepN; omega) fv a b
      have hv := vectorNodes_ok (vInv_start fv a b)
      have e : stepN 0 = 65 := rfl
      rw [e] at hc hd hq hv
      unfold integrateVector vectorLoop
      rw [if_pos h65]
      simp only [hc, hv, hd, Except.bind, Bind.bind]
      unfold vectorLoop
      rw [if_neg (by omega)]
    · unfold integrateVector vectorLoop
      rw [if_neg h65]
      rfl

/-- **C64, `integrate_clenshaw` with the default arguments** returns the same value when it converges before the
node limit; otherwise it raises. -/
theorem C64_clenshaw_default (par : Par ℝ) (f : ℝ → ℝ) (a b : ℝ) (maxn fuel : ℕ) (hm : 5 ≤ maxn)
    (hf : maxn ≤ fuel) : integrateClenshaw par f a b maxn fuel true = integrateClenshaw par f a b maxn fuel false ∨
      integrateClenshaw par f a b maxn fuel true = .error .typ := by
  obtain ⟨n, s, j, hs, hend⟩ := clenshawLoop_spec par f a b maxn fuel 0 {} (cInv_start f a b) (by omega)
    (by omega) (by unfold stepC; omega)
  have hs' : clenshawLoop par f a b maxn fuel 3 {} = .ok (n, s) := hs
  unfold integrateClenshaw
  rw [hs']
  simp only [Bind.bind, Except.bind]
  by_cases h : n ≥ maxn
  · right
    rw [if_pos ⟨trivial, h⟩]
    have := hend.nodes
    cases hnd : s.nodes with
    | none => exact (this hnd).elim
    | some _ => rfl
  · left
    rw [if_neg (by simpa using h)]
    rfl

/-- **C64, finding (debug_plot):** the parameter `debug_plot` of `integrate_clenshaw` hides the plotting function of
the same name and defaults to `True`; when the node limit is reached, the boolean is called: `TypeError`.  With
the node limit 5 this happens for every integrand, even for constants, which the rule integrates exactly. -/
theorem C64_finding_clenshaw_default (par : Par ℝ) (f : ℝ → ℝ) (a b : ℝ) (fuel : ℕ) (hf : 5 ≤ fuel) :
    integrateClenshaw par f a b 5 fuel true = .error .typ := by
  obtain ⟨n, s, j, hs, hend⟩ := clenshawLoop_spec par f a b 5 fuel 0 {} (cInv_start f a b) (by omega)
    (by omega) (by unfold stepC; omega)
  have hs' : clenshawLoop par f a b 5 fuel 3 {} = .ok (n, s) := hs
  have hn : n ≥ 5 := by
    rcases hend.n_eq with h | h
    · rw [h.1]
      obtain ⟨i, rfl⟩ : ∃ i, j = i + 1 := ⟨j - 1, by omega⟩
      have := Nat.one_le_two_pow (n := i)
      unfold stepC
      rw [pow_succ, pow_succ]
      omega
    · omega
  unfold integrateClenshaw
  rw [hs']
  simp only [Bind.bind, Except.bind]
  rw [if_pos ⟨trivial, hn⟩]
  have := hend.nodes
  cases hnd : s.nodes with
  | none => exact (this hnd).elim
  | some _ => rfl

end Pacal
