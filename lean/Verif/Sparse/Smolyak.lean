import Verif.Sparse.Model
import Verif.Iid.Lemmas
import Mathlib.RingTheory.PowerSeries.WellKnown
import Mathlib.Algebra.BigOperators.NatAntidiagonal
import Mathlib.Algebra.Polynomial.BigOperators

/-! Lemmas for `Sparse/Props.lean`: the index sets, and the combination formula by generating functions. -/

namespace Pacal
namespace Sparse
open PowerSeries Finset

theorem mem_genPartitions : ∀ {nd n : ℕ} {p : List ℕ}, 1 ≤ nd → 1 ≤ n →
    (p ∈ genPartitions nd n ↔ p.length = nd ∧ (∀ e ∈ p, 1 ≤ e) ∧ p.sum = n)
  | 1, n, p, _, hn => by
    rw [genPartitions, List.mem_singleton]
    constructor
    · rintro rfl; simp [hn]
    · rintro ⟨h1, -, h3⟩
      obtain ⟨a, rfl⟩ := List.length_eq_one_iff.1 h1
      simp at h3; rw [h3]
  | nd + 2, n, p, _, hn => by
    rw [genPartitions]
    simp only [List.mem_flatMap, List.mem_range'_1, List.mem_map]
    constructor
    · rintro ⟨x, ⟨h1, h2⟩, p', hp', rfl⟩
      obtain ⟨e1, e2, e3⟩ := (mem_genPartitions (by omega) (by omega)).1 hp'
      refine ⟨by simp [e1], ?_, by simp [e3]; omega⟩
      intro e he
      rcases List.mem_cons.1 he with rfl | he
      · exact h1
      · exact e2 e he
    · rintro ⟨h1, h2, h3⟩
      rcases p with _ | ⟨x, p'⟩
      · simp at h1
      have hx := h2 x (by simp)
      have hp0 : 1 ≤ p'.sum := by
        rcases p' with _ | ⟨y, p''⟩
        · simp at h1
        · have := h2 y (by simp); rw [List.sum_cons]; omega
      rw [List.sum_cons] at h3
      exact ⟨x, by omega, p', (mem_genPartitions (by omega) (by omega)).2
        ⟨by simpa using h1, fun e he => h2 e (by simp [he]), by omega⟩, rfl⟩

theorem nodup_genPartitions : ∀ (nd n : ℕ), (genPartitions nd n).Nodup
  | 0, _ => by simp [genPartitions]
  | 1, _ => by simp [genPartitions]
  | nd + 2, n => by
    rw [genPartitions, List.nodup_flatMap]
    refine ⟨fun x _ => (nodup_genPartitions (nd + 1) (n - x)).map (fun a b h => by simpa using h), ?_⟩
    refine (List.nodup_range').imp fun {a b} hab => ?_
    intro p h1 h2
    obtain ⟨p1, -, rfl⟩ := List.mem_map.1 h1
    obtain ⟨p2, -, h⟩ := List.mem_map.1 h2
    exact hab (List.cons.inj h).1.symm

theorem mem_genQ {q d : ℕ} (hd : 1 ≤ d) (hq : d ≤ q) {Q : List (List ℕ)} (h : genQ q d = .ok Q) {p : List ℕ} :
    p ∈ Q ↔ p.length = d ∧ (∀ e ∈ p, 1 ≤ e) ∧ q + 1 ≤ p.sum + d ∧ p.sum ≤ q := by
  rw [genQ, if_pos hq] at h
  cases h
  simp only [List.mem_flatMap, List.mem_range'_1]
  constructor
  · rintro ⟨i, hi, hp⟩
    obtain ⟨e1, e2, e3⟩ := (mem_genPartitions hd (by omega)).1 hp
    exact ⟨e1, e2, by omega, by omega⟩
  · rintro ⟨h1, h2, h3, h4⟩
    exact ⟨p.sum, by omega, (mem_genPartitions hd (by omega)).2 ⟨h1, h2, rfl⟩⟩

theorem nodup_genQ {q d : ℕ} (hd : 1 ≤ d) {Q : List (List ℕ)} (h : genQ q d = .ok Q) : Q.Nodup := by
  rw [genQ] at h
  split_ifs at h with hq
  cases h
  rw [List.nodup_flatMap]
  refine ⟨fun i _ => nodup_genPartitions _ _, ?_⟩
  refine (List.nodup_range').imp_of_mem fun {a b} ha hb hab => ?_
  intro p h1 h2
  have ha' := (List.mem_range'_1.1 ha).1
  have hb' := (List.mem_range'_1.1 hb).1
  exact hab (((mem_genPartitions hd (by omega)).1 h1).2.2.symm.trans ((mem_genPartitions hd (by omega)).1 h2).2.2)

/-! ### generating functions -/

variable {R : Type*} [CommRing R]

/-- `u 0` is not used: levels start at 1 -/
def pos (u : ℕ → R) : ℕ → R := fun k => if k = 0 then 0 else u k

/-- the product of the values at the levels of `p` -/
def prodAt (us : List (ℕ → R)) (p : List ℕ) : R := (List.zipWith (fun u e => u e) us p).prod

/-- the generating function -/
noncomputable def gen (u : ℕ → R) : PowerSeries R := mk (pos u)

theorem coeff_zero_gen (u : ℕ → R) : coeff 0 (gen u) = 0 := by rw [gen, coeff_mk]; simp [pos]

theorem coeff_gen_mul (u : ℕ → R) (φ : PowerSeries R) (h : coeff 0 φ = 0) (n : ℕ) :
    coeff n (gen u * φ) = ((List.range' 1 (n - 1)).map fun x => u x * coeff (n - x) φ).sum := by
  have e : (List.range' 1 (n - 1)).map (fun x => u x * coeff (n - x) φ) =
      (List.range (n - 1)).map fun i => u (i + 1) * coeff (n - (i + 1)) φ := by
    rw [List.range'_eq_map_range, List.map_map]
    refine List.map_congr_left fun i _ => ?_
    simp [add_comm]
  rw [e, coeff_mul, Finset.Nat.sum_antidiagonal_eq_sum_range_succ fun i j => coeff i (gen u) * coeff j φ]
  have e2 : ((List.range (n - 1)).map fun i => u (i + 1) * coeff (n - (i + 1)) φ).sum =
      ∑ i ∈ Finset.range (n - 1), u (i + 1) * coeff (n - (i + 1)) φ := rfl
  rw [e2]
  rcases n with _ | n
  · simp [coeff_zero_gen]
  rw [Finset.sum_range_succ', coeff_zero_gen, zero_mul, add_zero, Finset.sum_range_succ]
  rw [show n + 1 - (n + 1) = 0 by omega, h, mul_zero, add_zero]
  refine Finset.sum_congr rfl fun i _ => ?_
  rw [gen, coeff_mk, pos, if_neg (by omega)]

theorem coeff_zero_prod : ∀ (us : List (ℕ → R)), us ≠ [] → coeff 0 ((us.map gen).prod) = 0
  | [], h => absurd rfl h
  | u :: us, _ => by rw [List.map_cons, List.prod_cons, coeff_mul]; simp [coeff_zero_gen]

theorem sum_flatMap' {α M : Type*} [AddMonoid M] (f : α → List M) : ∀ l : List α, (l.flatMap f).sum = (l.map fun a => (f a).sum).sum
  | [] => rfl
  | a :: l => by rw [List.flatMap_cons, List.sum_append, sum_flatMap' f l, List.map_cons, List.sum_cons]

/-- the coefficients of the product of the generating functions are sums over partitions -/
theorem coeff_prod : ∀ (us : List (ℕ → R)) {n : ℕ}, us ≠ [] → 1 ≤ n →
    coeff n ((us.map gen).prod) = ((genPartitions us.length n).map (prodAt us)).sum
  | [], _, h, _ => absurd rfl h
  | [u], n, _, hn => by
    have : n ≠ 0 := by omega
    simp [genPartitions, prodAt, gen, coeff_mk, pos, this]
  | u :: v :: us, n, _, hn => by
    rw [List.map_cons, List.prod_cons, coeff_gen_mul _ _ (coeff_zero_prod _ (by simp))]
    show _ = ((genPartitions (us.length + 2) n).map (prodAt (u :: v :: us))).sum
    rw [genPartitions, List.map_flatMap]
    rw [sum_flatMap']
    congr 1
    refine List.map_congr_left fun x hx => ?_
    have hx' := List.mem_range'_1.1 hx
    rw [coeff_prod (v :: us) (by simp) (by omega), List.map_map, ← List.sum_map_mul_left]
    rfl

theorem coeff_one_sub_pow (n k : ℕ) : coeff k ((1 - X : PowerSeries R) ^ n) = if k ≤ n then (-1) ^ k * (n.choose k : R) else 0 := by
  have : (1 - X : PowerSeries R) ^ n = ∑ m ∈ Finset.range (n + 1), C ((-1) ^ m * (n.choose m : R)) * X ^ m := by
    rw [sub_eq_neg_add, add_pow]
    refine Finset.sum_congr rfl fun m _ => ?_
    rw [one_pow, mul_one, neg_pow, map_mul, map_pow, map_neg, map_one, map_natCast]
    ring
  rw [this, map_sum]
  simp only [coeff_C_mul, coeff_X_pow, mul_ite, mul_one, mul_zero]
  rw [Finset.sum_ite_eq (Finset.range (n + 1)) k]
  simp only [Finset.mem_range, Nat.lt_succ_iff]

/-- the difference of consecutive levels -/
def delta (u : ℕ → R) : ℕ → R := fun k => pos u k - pos u (k - 1)

theorem gen_delta (u : ℕ → R) : gen (delta u) = (1 - X) * gen u := by
  ext n
  rw [sub_mul, one_mul, map_sub]
  rcases n with _ | n
  · simp [coeff_zero_gen]
  · rw [coeff_succ_X_mul, gen, gen, coeff_mk, coeff_mk, coeff_mk]
    simp [pos, delta]

theorem prod_gen_delta (us : List (ℕ → R)) : ((us.map delta).map gen).prod = (1 - X) ^ us.length * (us.map gen).prod := by
  induction us with
  | nil => simp
  | cons u us ih => rw [List.map_cons, List.map_cons, List.prod_cons, ih, gen_delta, List.map_cons, List.prod_cons, List.length_cons]; ring

/-- the partial sums of the coefficients of the differences -/
theorem sum_coeff_delta {us : List (ℕ → R)} (hu : us ≠ []) (q : ℕ) :
    ∑ n ∈ Finset.range (q + 1), coeff n ((us.map delta).map gen).prod = coeff q ((1 - X) ^ (us.length - 1) * (us.map gen).prod) := by
  obtain ⟨m, hm⟩ : ∃ m, us.length = m + 1 := ⟨us.length - 1, by have := List.length_pos_of_ne_nil hu; omega⟩
  have h : (1 - X) ^ (us.length - 1) * (us.map gen).prod = mk 1 * ((us.map delta).map gen).prod := by
    rw [prod_gen_delta, hm, Nat.add_sub_cancel, pow_succ, mul_comm _ (1 - X), mul_assoc, ← mul_assoc (mk 1), mk_one_mul_one_sub_eq_one, one_mul]
  rw [h, coeff_mul, Finset.Nat.sum_antidiagonal_eq_sum_range_succ fun i j => coeff i (mk 1) * coeff j _,
    ← Finset.sum_range_reflect]
  refine Finset.sum_congr rfl fun i _ => ?_
  rw [coeff_mk]
  simp

/-- the value of a constant sequence from a certain level on is reached by the sum over all levels -/
theorem sum_coeff_exact : ∀ {ts : List ((ℕ → R) × ℕ × R)}, (∀ t ∈ ts, ∀ k, t.2.1 ≤ k → pos t.1 k = t.2.2) → ∃ P : Polynomial R,
      (((ts.map fun t => t.1).map delta).map gen).prod = (P : PowerSeries R) ∧ P.natDegree ≤ (ts.map fun t => t.2.1).sum ∧
      P.eval 1 = (ts.map fun t => t.2.2).prod
  | [], _ => ⟨1, by simp, by simp, by simp⟩
  | (u, k, L) :: ts, h => by
    obtain ⟨P, p1, p2, p3⟩ := sum_coeff_exact (ts := ts) fun t ht => h t (by simp [ht])
    have h0 : ∀ m, k ≤ m → pos u m = L := h (u, k, L) (by simp)
    refine ⟨(∑ i ∈ Finset.range (k + 1), Polynomial.monomial i (pos (delta u) i)) * P, ?_, ?_, ?_⟩
    · rw [List.map_cons, List.map_cons, List.map_cons, List.prod_cons, p1, Polynomial.coe_mul]
      congr 1
      ext n
      rw [gen, coeff_mk, Polynomial.coeff_coe, Polynomial.finsetSum_coeff]
      simp only [Polynomial.coeff_monomial]
      rw [Finset.sum_ite_eq' (Finset.range (k + 1)) n]
      split_ifs with hn
      · rfl
      · rw [Finset.mem_range] at hn
        rw [pos, if_neg (by omega)]
        show pos u n - pos u (n - 1) = 0
        rw [h0 n (by omega), h0 (n - 1) (by omega), sub_self]
    · rw [List.map_cons, List.sum_cons]
      refine Polynomial.natDegree_mul_le.trans (Nat.add_le_add ?_ p2)
      refine Polynomial.natDegree_sum_le_of_forall_le _ _ fun i hi => ?_
      exact (Polynomial.natDegree_monomial_le _).trans (by rw [Finset.mem_range] at hi; show i ≤ k; omega)
    · rw [Polynomial.eval_mul, p3, List.map_cons, List.prod_cons, Polynomial.eval_finsetSum]
      congr 1
      simp only [Polynomial.eval_monomial, one_pow, mul_one]
      have : ∀ m, ∑ i ∈ Finset.range (m + 1), pos (delta u) i = pos u m := by
        intro m
        induction m with
        | zero => simp [pos]
        | succ m ih => rw [Finset.sum_range_succ, ih]; simp [pos, delta]
      rw [this, h0 k le_rfl]

theorem sum_coeff_poly (P : Polynomial R) {q : ℕ} (h : P.natDegree ≤ q) :
    ∑ n ∈ Finset.range (q + 1), coeff n (P : PowerSeries R) = P.eval 1 := by
  rw [Polynomial.eval_eq_sum_range' (n := q + 1) (by omega)]
  simp [Polynomial.coeff_coe]

/-! ### the combination formula -/

variable {K : Type*} [Field K] [CharZero K]

theorem coef_eq {q d n : ℕ} (hd : 1 ≤ d) (h1 : q + 1 ≤ n + d) (h2 : n ≤ q) :
    ((coef q d n : ℚ) : K) = (-1) ^ (q - n) * ((d - 1).choose (q - n) : K) := by
  rw [coef]
  have e1 : (d : ℤ) - 1 = ((d - 1 : ℕ) : ℤ) := by omega
  have e2 : (q : ℤ) - n = ((q - n : ℕ) : ℤ) := by omega
  rw [e1, e2, Iid.binomialCoeff_eq (d - 1) (q - n) (by omega)]
  push_cast
  rfl

theorem comb_eq {us : List (ℕ → K)} (hu : us ≠ []) {q : ℕ} (hq : us.length ≤ q) {Q : List (List ℕ)}
    (h : genQ q us.length = .ok Q) :
    (Q.map fun p => ((coef q us.length p.sum : ℚ) : K) * prodAt us p).sum =
      coeff q ((1 - X) ^ (us.length - 1) * (us.map gen).prod) := by
  have hd : 1 ≤ us.length := List.length_pos_of_ne_nil hu
  rw [genQ, if_pos hq] at h
  cases h
  rw [List.map_flatMap, sum_flatMap']
  have e1 : (List.range' (q - us.length + 1) us.length).map (fun n => ((genPartitions us.length n).map fun p =>
      ((coef q us.length p.sum : ℚ) : K) * prodAt us p).sum) =
      (List.range us.length).map fun i => (-1) ^ (us.length - 1 - i) * ((us.length - 1).choose (us.length - 1 - i) : K) *
        coeff (q - (us.length - 1 - i)) (us.map gen).prod := by
    rw [List.range'_eq_map_range, List.map_map]
    refine List.map_congr_left fun i hi => ?_
    have hi' := List.mem_range.1 hi
    have e : q - (us.length - 1 - i) = q - us.length + 1 + i := by omega
    have e' : q - (q - us.length + 1 + i) = us.length - 1 - i := by omega
    rw [e, coeff_prod us hu (by omega), ← List.sum_map_mul_left]
    show ((genPartitions us.length (q - us.length + 1 + i)).map _).sum = _
    congr 1
    refine List.map_congr_left fun p hp => ?_
    rw [((mem_genPartitions hd (by omega)).1 hp).2.2, coef_eq hd (by omega) (by omega), e']
  rw [e1]
  have e2 : ∀ F : ℕ → K, ((List.range us.length).map F).sum = ∑ i ∈ Finset.range us.length, F i := fun F => rfl
  rw [e2, Finset.sum_range_reflect fun i => (-1) ^ i * ((us.length - 1).choose i : K) * coeff (q - i) (us.map gen).prod, coeff_mul,
    Finset.Nat.sum_antidiagonal_eq_sum_range_succ fun i j => coeff i ((1 - X : PowerSeries K) ^ (us.length - 1)) * coeff j (us.map gen).prod]
  rw [show q.succ = us.length + (q + 1 - us.length) by omega, Finset.sum_range_add]
  rw [Finset.sum_eq_zero (s := Finset.range (q + 1 - us.length)) fun i _ => by
    rw [coeff_one_sub_pow, if_neg (by omega), zero_mul], add_zero]
  refine Finset.sum_congr rfl fun i hi => ?_
  rw [Finset.mem_range] at hi
  rw [coeff_one_sub_pow, if_pos (by omega)]

/-- the coefficients applied to products of sequences which are constant from the levels `ks` on -/
theorem comb_exact {ts : List ((ℕ → K) × ℕ × K)} (hu : ts ≠ []) {q : ℕ} (hq : ts.length ≤ q) {Q : List (List ℕ)}
    (h : genQ q ts.length = .ok Q) (hk : (ts.map fun t => t.2.1).sum ≤ q) (hL : ∀ t ∈ ts, ∀ k, t.2.1 ≤ k → pos t.1 k = t.2.2) :
    (Q.map fun p => ((coef q ts.length p.sum : ℚ) : K) * prodAt (ts.map fun t => t.1) p).sum = (ts.map fun t => t.2.2).prod := by
  obtain ⟨P, p1, p2, p3⟩ := sum_coeff_exact hL
  have := comb_eq (us := ts.map fun t => t.1) (by simpa using hu) (by simpa using hq) (by simpa using h)
  rw [List.length_map] at this
  rw [this]
  have h2 := sum_coeff_delta (us := ts.map fun t => t.1) (by simpa using hu) q
  rw [List.length_map] at h2
  rw [← h2, p1, sum_coeff_poly P (p2.trans hk), p3]

/-- the combination formula is the sum of the products of differences over all levels with sum at most `q` -/
theorem comb_smolyak {us : List (ℕ → K)} (hu : us ≠ []) {q : ℕ} (hq : us.length ≤ q) {Q : List (List ℕ)}
    (h : genQ q us.length = .ok Q) :
    (Q.map fun p => ((coef q us.length p.sum : ℚ) : K) * prodAt us p).sum =
      ∑ n ∈ Finset.range q, ((genPartitions us.length (n + 1)).map (prodAt (us.map delta))).sum := by
  rw [comb_eq hu hq h, ← sum_coeff_delta hu, Finset.sum_range_succ', coeff_zero_prod _ (by simpa using hu), add_zero]
  refine Finset.sum_congr rfl fun n _ => ?_
  rw [coeff_prod _ (by simpa using hu) (by omega), List.length_map]

end Sparse
end Pacal
