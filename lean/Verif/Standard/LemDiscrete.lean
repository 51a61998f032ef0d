import Verif.Standard.Discrete
import Verif.Standard.DiscreteSpec
import Verif.Distr.PropsDiscrete
import Mathlib.Analysis.SpecificLimits.Normed

/-!
Lemmas for `Verif.Standard.PropsDiscrete`.
-/

namespace Pacal.Standard
open Real MeasureTheory Textbook Filter Topology

theorem table_succ (n : ℕ) (f : ℕ → ℝ) : table (n + 1) f = table n f ++ [((n : ℝ), f n)] := by
  rw [table, List.range_succ, List.map_append]
  rfl

theorem table_sum (n : ℕ) (f : ℕ → ℝ) : ((table n f).map Prod.snd).sum = ∑ k ∈ Finset.range n, f k := by
  induction n with
  | zero => rfl
  | succ n ih => rw [table_succ, List.map_append, List.sum_append, ih, Finset.sum_range_succ]; simp

theorem table_separated {eps : ℝ} (he : eps < 1) (n : ℕ) (f : ℕ → ℝ) :
    (table n f).Pairwise fun a b => eps < |a.1 - b.1| := by
  rw [table, List.pairwise_map]
  refine List.pairwise_lt_range.imp fun {a b} h => ?_
  have h1 : (a : ℝ) + 1 ≤ b := by exact_mod_cast h
  rw [abs_sub_comm]
  exact lt_of_lt_of_le he (le_abs.2 (Or.inl (by linarith)))

theorem table_nonneg {n : ℕ} {f : ℕ → ℝ} (hf : ∀ k < n, 0 ≤ f k) : ∀ p ∈ table n f, 0 ≤ p.2 := by
  intro p hp
  obtain ⟨k, hk, rfl⟩ := List.mem_map.1 hp
  exact hf k (List.mem_range.1 hk)

theorem table_law {eps : ℝ} (he : 0 ≤ eps) (he1 : eps < 1) {n : ℕ} {f : ℕ → ℝ} (hf : ∀ k < n, 0 ≤ f k) :
    ∃ r, discretePF eps (table n f) = some r ∧ PF.WF eps r ∧ PF.Dens r ∧
      PF.law r = ∑ k ∈ Finset.range n, ENNReal.ofReal (f k) • Measure.dirac (k : ℝ) := by
  obtain ⟨r, h1, h2, h3, h4⟩ := C25_law_partial he (table_separated he1 n f) (table_nonneg hf)
  refine ⟨r, h1, h2, h3, h4.trans ?_⟩
  clear h1 h2 h3 h4 hf
  induction n with
  | zero => rfl
  | succ n ih => rw [table_succ, List.map_append, List.sum_append, ih, Finset.sum_range_succ]; simp

theorem table_univ {n : ℕ} {f : ℕ → ℝ} (hf : ∀ k < n, 0 ≤ f k) :
    (∑ k ∈ Finset.range n, ENNReal.ofReal (f k) • Measure.dirac (k : ℝ)) Set.univ =
      ENNReal.ofReal (∑ k ∈ Finset.range n, f k) := by
  rw [Measure.finsetSum_apply, ENNReal.ofReal_sum_of_nonneg fun k hk => hf k (Finset.mem_range.1 hk)]
  simp

theorem table_prob {n : ℕ} {f : ℕ → ℝ} (hf : ∀ k < n, 0 ≤ f k) (h : ∑ k ∈ Finset.range n, f k = 1) :
    IsProbabilityMeasure (∑ k ∈ Finset.range n, ENNReal.ofReal (f k) • Measure.dirac (k : ℝ)) :=
  ⟨by rw [table_univ hf, h, ENNReal.ofReal_one]⟩

theorem table_filter {n k : ℕ} (f : ℕ → ℝ) (hk : k < n) :
    (((table n f).filter fun p => decide (p.1 = (k : ℝ))).map Prod.snd).sum = f k := by
  have key : ∀ n, (((table n f).filter fun p => decide (p.1 = (k : ℝ))).map Prod.snd).sum =
      if k < n then f k else 0 := by
    intro n
    induction n with
    | zero => rfl
    | succ n ih =>
      rw [table_succ, List.filter_append, List.map_append, List.sum_append, ih]
      rcases lt_trichotomy k n with h | rfl | h
      · rw [if_pos h, if_pos (by omega)]
        simp [h.ne']
      · simp
      · rw [if_neg (by omega), if_neg (by omega)]
        simp [h.ne]
  rw [key, if_pos hk]

theorem binomial_ratio {n i : ℕ} (hi : i < n) {p : ℝ} (hp : 1 - p ≠ 0) :
    binomial n p i * ((n : ℝ) - i) / (i + 1) * (p / (1 - p)) = binomial n p (i + 1) := by
  have h1 : ((n.choose (i + 1) : ℝ)) * (i + 1) = n.choose i * ((n : ℝ) - i) := by
    have := Nat.choose_succ_right_eq n i
    have h2 : ((n - i : ℕ) : ℝ) = (n : ℝ) - i := Nat.cast_sub hi.le
    rw [← h2]
    exact_mod_cast this
  have h3 : n - i = n - (i + 1) + 1 := by omega
  have h4 : (0 : ℝ) < i + 1 := by positivity
  have h5 : (n.choose (i + 1) : ℝ) = n.choose i * ((n : ℝ) - i) / (i + 1) := by
    rw [eq_div_iff h4.ne', h1]
  rw [binomial, binomial, h5, h3, pow_succ, pow_succ]
  field_simp

theorem binomial_fold (n : ℕ) {p : ℝ} (hp : 1 - p ≠ 0) : ∀ m ≤ n,
    (List.range m).foldl (binomialStep n (p / (1 - p))) ((1 - p) ^ n, [(0, (1 - p) ^ n)]) =
      (binomial n p m, table (m + 1) (binomial n p)) := by
  intro m
  induction m with
  | zero =>
    intro _
    simp [table, binomial]
  | succ m ih =>
    intro hm
    rw [List.range_succ, List.foldl_append, ih (by omega), List.foldl_cons, List.foldl_nil, binomialStep]
    dsimp only
    rw [binomial_ratio (by omega) hp, table_succ (m + 1)]
    push_cast
    rfl

theorem binomial_nonneg {p : ℝ} (h0 : 0 ≤ p) (h1 : p ≤ 1) (n k : ℕ) : 0 ≤ binomial n p k := by
  have : 0 ≤ 1 - p := by linarith
  rw [binomial]
  positivity

theorem binomial_total (n : ℕ) (p : ℝ) : ∑ k ∈ Finset.range (n + 1), binomial n p k = 1 := by
  have h := add_pow p (1 - p) n
  rw [add_sub_cancel, one_pow] at h
  rw [h]
  refine Finset.sum_congr rfl fun k _ => ?_
  rw [binomial]
  ring

theorem poisson_nonneg {lmbda : ℝ} (h : 0 ≤ lmbda) (k : ℕ) : 0 ≤ poisson lmbda k := by
  rw [poisson]
  positivity

theorem poisson_hasSum (lmbda : ℝ) : HasSum (poisson lmbda) 1 := by
  have h := (NormedSpace.expSeries_div_hasSum_exp lmbda).mul_left (exp (-lmbda))
  rw [← Real.exp_eq_exp_ℝ, ← exp_add, neg_add_cancel, exp_zero] at h
  refine h.congr_fun ?_
  intro k
  rw [poisson, mul_div_assoc]

theorem poisson_step (lmbda : ℝ) (k : ℕ) : poisson lmbda k * lmbda / ((k : ℝ) + 1) = poisson lmbda (k + 1) := by
  rw [poisson, poisson, Nat.factorial_succ, pow_succ]
  push_cast
  field_simp

/-- mass of the first `n` points -/
noncomputable def pmass (lmbda : ℝ) (n : ℕ) : ℝ := ∑ k ∈ Finset.range n, poisson lmbda k

theorem pmass_le_one {lmbda : ℝ} (h : 0 ≤ lmbda) (n : ℕ) : pmass lmbda n ≤ 1 :=
  sum_le_hasSum _ (fun k _ => poisson_nonneg h k) (poisson_hasSum lmbda)

theorem pmass_eventually {lmbda eps : ℝ} (he : 0 < eps) : ∃ n, 1 - pmass lmbda (n + 1) < eps := by
  have h := (poisson_hasSum lmbda).tendsto_sum_nat
  have h2 := (h.comp (tendsto_add_atTop_nat 1)).const_sub 1
  rw [sub_self] at h2
  exact (h2.eventually (gt_mem_nhds he)).exists

theorem poissonLoop_step {lmbda eps : ℝ} {fuel k : ℕ} (h : eps ≤ 1 - pmass lmbda (k + 1)) :
    poissonLoop lmbda eps (fuel + 1) k (poisson lmbda k) (pmass lmbda (k + 1)) (table k (poisson lmbda)) =
    poissonLoop lmbda eps fuel ((k + 1 : ℕ) : ℝ) (poisson lmbda (k + 1)) (pmass lmbda (k + 1 + 1))
      (table (k + 1) (poisson lmbda)) := by
  rw [poissonLoop, if_pos h]
  dsimp only
  rw [poisson_step, ← table_succ, pmass, pmass, Finset.sum_range_succ _ (k + 1)]
  push_cast
  rfl

theorem poissonLoop_eq {lmbda eps : ℝ} {K : ℕ} (hK : 1 - pmass lmbda (K + 1) < eps)
    (hmin : ∀ j < K, eps ≤ 1 - pmass lmbda (j + 1)) : ∀ (d k fuel : ℕ), k + d = K → d < fuel →
    poissonLoop lmbda eps fuel k (poisson lmbda k) (pmass lmbda (k + 1)) (table k (poisson lmbda)) =
      some (table (K + 1) (poisson lmbda)) := by
  intro d
  induction d with
  | zero =>
    intro k fuel hk hf
    obtain ⟨fuel, rfl⟩ : ∃ f, fuel = f + 1 := ⟨fuel - 1, by omega⟩
    obtain rfl : k = K := by omega
    rw [poissonLoop, if_neg (not_le.2 hK), table_succ]
  | succ d ih =>
    intro k fuel hk hf
    obtain ⟨fuel, rfl⟩ : ∃ f, fuel = f + 1 := ⟨fuel - 1, by omega⟩
    rw [poissonLoop_step (hmin k (by omega))]
    exact ih (k + 1) fuel (by omega) (by omega)

theorem poissonTable_start (fuel : ℕ) (lmbda eps : ℝ) : poissonTable fuel lmbda eps =
    poissonLoop lmbda eps fuel ((0 : ℕ) : ℝ) (poisson lmbda 0) (pmass lmbda (0 + 1)) (table 0 (poisson lmbda)) := by
  simp [poissonTable, poisson, pmass, table]

theorem poissonLoop_never {lmbda eps : ℝ} (h : 0 ≤ lmbda) (he : eps ≤ 0) : ∀ fuel k : ℕ,
    poissonLoop lmbda eps fuel k (poisson lmbda k) (pmass lmbda (k + 1)) (table k (poisson lmbda)) = none
  | 0, _ => rfl
  | fuel + 1, k => by
    rw [poissonLoop_step (by linarith [pmass_le_one h (k + 1)])]
    exact poissonLoop_never h he fuel (k + 1)

/-- sum of the first `n` values -/
noncomputable def fmass (f : ℝ → ℝ) (n : ℕ) : ℝ := ∑ k ∈ Finset.range n, f k

theorem truncLoop_eq {f : ℝ → ℝ} {eps : ℝ} {K : ℕ} (hK : |fmass f K - 1| < eps)
    (hmin : ∀ j < K, eps ≤ |fmass f j - 1|) : ∀ (d k fuel : ℕ), k + d = K → d < fuel →
    truncLoop f eps fuel k (fmass f k) (table k fun j => f j) = some (table K fun j => f j, fmass f K) := by
  intro d
  induction d with
  | zero =>
    intro k fuel hk hf
    obtain ⟨fuel, rfl⟩ : ∃ f, fuel = f + 1 := ⟨fuel - 1, by omega⟩
    obtain rfl : k = K := by omega
    rw [truncLoop, if_neg (not_le.2 hK)]
  | succ d ih =>
    intro k fuel hk hf
    obtain ⟨fuel, rfl⟩ : ∃ f, fuel = f + 1 := ⟨fuel - 1, by omega⟩
    rw [truncLoop, if_pos (hmin k (by omega))]
    dsimp only
    rw [← table_succ k fun j => f j, table_sum]
    have := ih (k + 1) fuel (by omega) (by omega)
    push_cast at this
    exact this

theorem truncLoop_never {f : ℝ → ℝ} {eps : ℝ} (h : ∀ j : ℕ, eps ≤ |fmass f j - 1|) : ∀ fuel k : ℕ,
    truncLoop f eps fuel k (fmass f k) (table k fun j => f j) = none
  | 0, _ => rfl
  | fuel + 1, k => by
    rw [truncLoop, if_pos (h k)]
    dsimp only
    rw [← table_succ k fun j => f j, table_sum]
    have := truncLoop_never h fuel (k + 1)
    push_cast at this
    exact this

end Pacal.Standard
