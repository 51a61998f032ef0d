import Verif.Standard.LemDiscrete

/-!
The standard discrete distributions (C47).  The textbook probabilities are in `Verif.Standard.DiscreteSpec`;
`Textbook.table n f` lists the points `0, …, n - 1` with the probabilities `f`.

The full property is for all parameters, which fails for `BinomialDistr(n, 1)` (`C47_violated_binomial_one`).
-/

namespace Pacal.Standard
open Real MeasureTheory Textbook Set

/-- **C47**, binomial, the table: exactly the points `0, …, n` with the textbook probabilities, for every `p ≠ 1` -/
theorem C47_binomial_table_partial (n : ℕ) {p : ℝ} (hp : p ≠ 1) :
    binomialTable n p = some (table (n + 1) (binomial n p)) := by
  have hq : 1 - p ≠ 0 := sub_ne_zero.2 hp.symm
  rw [binomialTable, if_neg hq]
  dsimp only
  rw [binomial_fold n hq n le_rfl]

/-- **C47**, binomial, the distribution: for `0 ≤ p < 1` it is built, it is the binomial law, and its mass is 1; each
uniform draw gives a sample and `k` is drawn with its probability. -/
theorem C47_binomial_partial {eps : ℝ} (he : 0 ≤ eps) (he1 : eps < 1) (n : ℕ) {p : ℝ} (h0 : 0 ≤ p) (h1 : p < 1) :
    ∃ t r, binomialTable n p = some t ∧ discretePF eps t = some r ∧ PF.WF eps r ∧ PF.Dens r ∧
      PF.law r = ∑ k ∈ Finset.range (n + 1), ENNReal.ofReal (binomial n p k) • Measure.dirac (k : ℝ) ∧
      IsProbabilityMeasure (PF.law r) ∧
      (∀ u ∈ Ico (0 : ℝ) 1, ∃ x, discreteRand t u = some x) ∧
      ∀ k ≤ n, volume {u | u ∈ Ico (0 : ℝ) 1 ∧ discreteRand t u = some (k : ℝ)} = ENNReal.ofReal (binomial n p k) := by
  have hb : ∀ k < n + 1, 0 ≤ binomial n p k := fun k _ => binomial_nonneg h0 h1.le n k
  obtain ⟨r, a, b, c, d⟩ := table_law he he1 hb
  refine ⟨_, r, C47_binomial_table_partial n h1.ne, a, b, c, d, ?_, ?_⟩
  · rw [d]
    exact table_prob hb (binomial_total n p)
  · have hs := C25_sampler (table_nonneg hb) ((table_sum _ _).trans (binomial_total n p))
    refine ⟨hs.1, fun k hk => ?_⟩
    rw [hs.2, table_filter _ (by omega)]

/-- **C47**, Bernoulli, for all `p` between 0 and 1 -/
theorem C47_bernoulli {eps : ℝ} (he : 0 ≤ eps) (he1 : eps < 1) {p : ℝ} (h0 : 0 ≤ p) (h1 : p ≤ 1) :
    ∃ r, discretePF eps (bernoulliTable p) = some r ∧ PF.WF eps r ∧ PF.Dens r ∧
      PF.law r = ENNReal.ofReal (1 - p) • Measure.dirac 0 + ENNReal.ofReal p • Measure.dirac 1 ∧
      (∀ u ∈ Ico (0 : ℝ) 1, ∃ x, discreteRand (bernoulliTable p) u = some x) ∧
      volume {u | u ∈ Ico (0 : ℝ) 1 ∧ discreteRand (bernoulliTable p) u = some 1} = ENNReal.ofReal p := by
  have hn : ∀ q ∈ bernoulliTable p, 0 ≤ q.2 := by
    simp only [bernoulliTable, List.mem_cons, List.not_mem_nil, or_false, forall_eq_or_imp, forall_eq]
    exact ⟨by linarith, h0⟩
  obtain ⟨r, a, b, c, d⟩ := C25_law_partial he (t := bernoulliTable p) (by simpa [bernoulliTable] using he1) hn
  have hs := C25_sampler hn (by simp [bernoulliTable])
  refine ⟨r, a, b, c, d.trans (by simp [bernoulliTable]), hs.1, ?_⟩
  rw [hs.2]
  simp [bernoulliTable]

/-- **C47**, Poisson: for every `lmbda ≥ 0` and every tolerance above 0 the loop ends.  The table lists the points
`0, …, K` with the textbook probabilities, where `K` is the first point up to which less than the tolerance is missing;
the distribution is built and its law has these atoms and nothing else. -/
theorem C47_poisson {eps : ℝ} (he : 0 ≤ eps) (he1 : eps < 1) {lmbda tol : ℝ} (hl : 0 ≤ lmbda) (ht : 0 < tol) :
    ∃ K r, (∀ fuel > K, poissonTable fuel lmbda tol = some (table (K + 1) (poisson lmbda))) ∧
      1 - ∑ k ∈ Finset.range (K + 1), poisson lmbda k < tol ∧
      (∀ j < K, tol ≤ 1 - ∑ k ∈ Finset.range (j + 1), poisson lmbda k) ∧
      discretePF eps (table (K + 1) (poisson lmbda)) = some r ∧ PF.WF eps r ∧ PF.Dens r ∧
      PF.law r = ∑ k ∈ Finset.range (K + 1), ENNReal.ofReal (poisson lmbda k) • Measure.dirac (k : ℝ) ∧
      (PF.law r) univ ≤ 1 ∧ 1 - tol < (PF.law r).real univ := by
  classical
  have hex := pmass_eventually (lmbda := lmbda) ht
  have hK := Nat.find_spec hex
  have hmin : ∀ j < Nat.find hex, tol ≤ 1 - pmass lmbda (j + 1) := fun j hj => not_lt.1 (Nat.find_min hex hj)
  generalize Nat.find hex = K at hK hmin
  obtain ⟨r, a, b, c, d⟩ := table_law he he1 (n := K + 1) fun k _ => poisson_nonneg hl k
  have hm : (PF.law r) univ = ENNReal.ofReal (pmass lmbda (K + 1)) := by
    rw [d, table_univ fun k _ => poisson_nonneg hl k]
    rfl
  refine ⟨K, r, fun fuel hf => ?_, hK, hmin, a, b, c, d, ?_, ?_⟩
  · rw [poissonTable_start]
    exact poissonLoop_eq hK hmin K 0 fuel (by omega) hf
  · rw [hm]
    exact ENNReal.ofReal_le_one.2 (pmass_le_one hl _)
  · have h0 : 0 ≤ pmass lmbda (K + 1) := Finset.sum_nonneg fun k _ => poisson_nonneg hl k
    rw [Measure.real, hm, ENNReal.toReal_ofReal h0]
    linarith

/-- **C47**, the generic truncated distribution: if `K ≥ 1` is the first number of points whose values add up to 1 within
the tolerance and they do not add up to 0, the table lists these points, with the values divided by their sum; its total
is 1. -/
theorem C47_trunc {f : ℝ → ℝ} {tol : ℝ} {K : ℕ} (h1 : 0 < K) (hK : |∑ k ∈ Finset.range K, f k - 1| < tol)
    (hmin : ∀ j < K, tol ≤ |∑ k ∈ Finset.range j, f k - 1|) (h0 : ∑ k ∈ Finset.range K, f k ≠ 0) :
    ∃ t, (∀ fuel > K, truncTable fuel f tol = some t) ∧
      t = table K (fun k => f k / ∑ j ∈ Finset.range K, f j) ∧ (t.map Prod.snd).sum = 1 := by
  refine ⟨_, fun fuel hf => ?_, rfl, ?_⟩
  · have := truncLoop_eq (f := f) hK hmin K 0 fuel (by omega) hf
    rw [truncTable]
    have e : truncLoop f tol fuel 0 0 [] = some (table K fun j => f j, fmass f K) := by
      simpa [fmass, table] using this
    rw [e, Option.bind_some, if_neg (fun h => h0 h.2)]
    simp only [table, List.map_map]
    rfl
  · rw [table_sum, ← Finset.sum_div]
    exact div_self h0

/-- **C47**, the generic truncated distribution: for nonnegative values with sum 1 and a tolerance between 0 and 1 the
loop ends and the distribution is a probability law on `0, …, K - 1` with the ratios of the values. -/
theorem C47_trunc_law {eps : ℝ} (he : 0 ≤ eps) (he1 : eps < 1) {f : ℝ → ℝ} (hf : ∀ k : ℕ, 0 ≤ f k)
    (hs : HasSum (fun k : ℕ => f k) 1) {tol : ℝ} (ht : 0 < tol) (ht1 : tol ≤ 1) :
    ∃ K t r, (∀ fuel > K, truncTable fuel f tol = some t) ∧ 1 - ∑ k ∈ Finset.range K, f k < tol ∧
      discretePF eps t = some r ∧ PF.WF eps r ∧ PF.Dens r ∧ IsProbabilityMeasure (PF.law r) ∧
      PF.law r = ∑ k ∈ Finset.range K,
        ENNReal.ofReal (f k / ∑ j ∈ Finset.range K, f j) • Measure.dirac (k : ℝ) := by
  classical
  have hle : ∀ n, ∑ k ∈ Finset.range n, f k ≤ 1 := fun n => sum_le_hasSum _ (fun k _ => hf k) hs
  have hab : ∀ n, |∑ k ∈ Finset.range n, f k - 1| = 1 - ∑ k ∈ Finset.range n, f k := fun n => by
    rw [abs_of_nonpos (by linarith [hle n])]; ring
  have hex : ∃ n, |∑ k ∈ Finset.range n, f k - 1| < tol := by
    have h := hs.tendsto_sum_nat.const_sub 1
    rw [sub_self] at h
    obtain ⟨n, hn⟩ := (h.eventually (gt_mem_nhds ht)).exists
    exact ⟨n, by rwa [hab]⟩
  have hK := Nat.find_spec hex
  have hmin : ∀ j < Nat.find hex, tol ≤ |∑ k ∈ Finset.range j, f k - 1| := fun j hj => not_lt.1 (Nat.find_min hex hj)
  generalize Nat.find hex = K at hK hmin
  have h1 : 0 < K := by
    rcases Nat.eq_zero_or_pos K with rfl | h
    · simp at hK; linarith
    · exact h
  have hpos : 0 < ∑ k ∈ Finset.range K, f k := by
    rw [hab] at hK
    linarith
  obtain ⟨t, e1, e2, e3⟩ := C47_trunc h1 hK hmin hpos.ne'
  have hb : ∀ k < K, 0 ≤ f k / ∑ j ∈ Finset.range K, f j := fun k _ => div_nonneg (hf k) hpos.le
  obtain ⟨r, a, b, c, d⟩ := table_law he he1 hb
  refine ⟨K, t, r, e1, by rwa [hab] at hK, e2 ▸ a, b, c, ?_, d⟩
  rw [d]
  refine table_prob hb ?_
  rw [← table_sum, ← e2, e3]

/-- **C47**, the constants 0 and 1 -/
theorem C47_zero_one {eps : ℝ} (he : 0 ≤ eps) :
    (∃ r, zeroDistr eps = some r ∧ PF.law r = Measure.dirac 0) ∧
    ∃ r, oneDistr eps = some r ∧ PF.law r = Measure.dirac 1 := by
  constructor
  · obtain ⟨r, a, -, -, d⟩ := C25_law_partial he (t := [(0, 1)]) (by simp) (by simp)
    exact ⟨r, a, d.trans (by simp)⟩
  · obtain ⟨r, a, -, -, d⟩ := C25_law_partial he (t := [(1, 1)]) (by simp) (by simp)
    exact ⟨r, a, d.trans (by simp)⟩

/-! ### violations -/

/-- **C47** fails for `BinomialDistr(n, 1)`: the certain outcome `n` is a legitimate binomial law, but the constructor
divides by `1 - p = 0`. -/
theorem C47_violated_binomial_one (n : ℕ) : binomialTable n 1 = none := by
  rw [binomialTable, if_pos (sub_self 1)]

/-- **C47**, finding: with a tolerance that is not positive the constructor of the Poisson distribution does not end, in
exact arithmetic. -/
theorem C47_finding_poisson_zero_tolerance {lmbda tol : ℝ} (hl : 0 ≤ lmbda) (ht : tol ≤ 0) (fuel : ℕ) :
    poissonTable fuel lmbda tol = none := by
  rw [poissonTable_start]
  exact poissonLoop_never hl ht fuel 0

/-- **C47**, finding: a negative rate is accepted and gives a single atom of mass above 1. -/
theorem C47_finding_poisson_negative {lmbda tol : ℝ} (hl : lmbda < 0) (ht : 0 ≤ tol) (fuel : ℕ) :
    poissonTable (fuel + 1) lmbda tol = some [(0, exp (-lmbda))] ∧ 1 < exp (-lmbda) := by
  have h : 1 < exp (-lmbda) := one_lt_exp_iff.2 (by linarith)
  refine ⟨?_, h⟩
  rw [poissonTable, poissonLoop, if_neg (by rw [one_mul]; intro h'; linarith)]
  simp

/-- **C47**, finding: the truncated Poisson distribution is not normalised, so for every positive rate there are uniform
draws on which its sampler is an index error. -/
theorem C47_finding_poisson_sampler {lmbda : ℝ} (hl : 0 < lmbda) (K : ℕ) :
    ∃ c < 1, ∀ u, c < u → discreteRand (table (K + 1) (poisson lmbda)) u = none := by
  refine ⟨pmass lmbda (K + 1), ?_, fun u hu =>
    C25_finding_index_error (table_nonneg fun k _ => poisson_nonneg hl.le k) (by rw [table_sum]; exact hu)⟩
  have h1 := pmass_le_one hl.le (K + 1 + 1)
  have h2 : 0 < poisson lmbda (K + 1) := by rw [poisson]; positivity
  rw [pmass, Finset.sum_range_succ] at h1
  rw [pmass]
  linarith

/-- **C47**, finding: with a tolerance above 1 the generic truncated distribution has an empty table. -/
theorem C47_finding_trunc_empty (f : ℝ → ℝ) {tol : ℝ} (ht : 1 < tol) (fuel : ℕ) :
    truncTable (fuel + 1) f tol = some [] := by
  rw [truncTable, truncLoop, if_neg (by rw [zero_sub, abs_neg, abs_one]; exact not_le.2 ht)]
  simp

/-- **C47**, finding: the constructor of the generic truncated distribution does not end when no partial sum comes within
the tolerance of 1. -/
theorem C47_finding_trunc_endless {f : ℝ → ℝ} {tol : ℝ} (h : ∀ j, tol ≤ |∑ k ∈ Finset.range j, f k - 1|) (fuel : ℕ) :
    truncTable fuel f tol = none := by
  have := truncLoop_never (f := f) h fuel 0
  have e : truncLoop f tol fuel 0 0 [] = none := by simpa [fmass, table] using this
  rw [truncTable, e, Option.bind_none]

/-! ### the hypotheses can be met -/

example : ∃ t r, binomialTable 3 (1 / 4) = some t ∧ discretePF (1 / 10) t = some r ∧
    volume {u | u ∈ Ico (0 : ℝ) 1 ∧ discreteRand t u = some ((2 : ℕ) : ℝ)} = ENNReal.ofReal (9 / 64) := by
  obtain ⟨t, r, a, b, -, -, -, -, -, h⟩ := C47_binomial_partial (eps := 1 / 10) (by norm_num) (by norm_num) 3
    (p := 1 / 4) (by norm_num) (by norm_num)
  refine ⟨t, r, a, b, (h 2 (by norm_num)).trans ?_⟩
  congr 1
  norm_num [binomial, Nat.choose]

/-- three rounds for the rate 0 are more than needed: the whole mass is at 0 -/
example : poissonTable 3 0 (1 / 10) = some [(0, 1)] := by
  norm_num [poissonTable, poissonLoop]

example : ∃ K r, discretePF (1 / 10) (table (K + 1) (poisson 2)) = some r ∧ 1 - 1 / 1000 < (PF.law r).real univ := by
  obtain ⟨K, r, -, -, -, a, -, -, -, -, h⟩ := C47_poisson (eps := 1 / 10) (by norm_num) (by norm_num) (lmbda := 2)
    (tol := 1 / 1000) (by norm_num) (by norm_num)
  exact ⟨K, r, a, h⟩

/-- values 1/2, 1/4, 1/8, … truncated at a missing mass below 0.3 -/
example : ∃ t, (∀ fuel > 2, truncTable fuel (fun x => (1 / 2) ^ (x + 1)) (3 / 10) = some t) ∧
    (t.map Prod.snd).sum = 1 := by
  have e1 : ((1 / 2 : ℝ)) ^ ((1 : ℝ) + 1) = 1 / 4 := by
    rw [show (1 : ℝ) + 1 = ((2 : ℕ) : ℝ) by norm_num, rpow_natCast]; norm_num
  obtain ⟨t, a, -, b⟩ := C47_trunc (f := fun x => (1 / 2) ^ (x + 1)) (tol := 3 / 10) (K := 2) (by norm_num)
    (by norm_num [Finset.sum_range_succ, e1, abs_lt]) (by
      intro j hj
      interval_cases j <;> norm_num [Finset.sum_range_succ, abs_of_nonpos])
    (by norm_num [Finset.sum_range_succ, e1])
  exact ⟨t, a, b⟩

end Pacal.Standard
