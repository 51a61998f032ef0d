import Verif.Quantile.LemCoin

/-!
C08 (quantiles invert the CDF), C09 (confidence intervals) and C60 (sampling by inversion).

`PF.law l` is the distribution with the piecewise density `l`; `IsQuantile` is in `Quantile/Spec.lean`.  The theorems assume
that integration and the root finder are exact, that the distribution has no gaps (each piece starts where the previous one
ends; an atom must lie at the end of a piece) and that the search for a bracket on an unbounded piece gets enough steps
(`fuel`); it always ends.
-/

namespace Pacal
namespace Quantile
open MeasureTheory Set Transform Filter Roots

variable {eps : ℝ} {q : Quad} {qp : QPar} {S : Finder ℝ} {l : PF ℝ}

/-- **C08**: `quantile(y)` is a number `x` with `P(X < x) ≤ y ≤ P(X ≤ x)`, for every level in `[0, 1]` -/
theorem C08_quantile_partial (h : Setting eps q qp S l) {y : ℝ} (h0 : 0 ≤ y) (h1 : y ≤ 1) :
    ∃ x : EReal, IsQuantile (PF.law l) y x ∧ ∃ N, ∀ fuel, N ≤ fuel → quantile (par eps q qp S fuel) l y = .ok (some x) := by
  have := h.prob
  obtain ⟨c, hc, hC⟩ := cumint_isCdf h.eps_nonneg h.quad h.ne h.wf h.dens h.chain
  obtain ⟨x, hx, N, hN⟩ := inverseScalar_spec hC h.finder h0 h1
  refine ⟨x, hx, N, fun fuel hf => ?_⟩
  rw [quantile, hc]
  exact hN fuel hf

/-- **C08**: for levels strictly between 0 and 1 the quantile is finite, and if there is no atom at the quantile the CDF there
(as computed by `cdf`) is the level -/
theorem C08_cdf_partial (h : Setting eps q qp S l) {y : ℝ} (h0 : 0 < y) (h1 : y < 1) :
    ∃ x : ℝ, (∃ N, ∀ fuel, N ≤ fuel → quantile (par eps q qp S fuel) l y = .ok (some (x : EReal))) ∧
      (PF.law l {x} = 0 → PF.cdf eps q qp l x = some y) := by
  have := h.prob
  obtain ⟨x, hx, hN⟩ := C08_quantile_partial h h0.le h1.le
  obtain ⟨r, rfl⟩ := hx.finite h0 h1
  refine ⟨r, hN, fun ha => ?_⟩
  rw [C07_cdf_partial h.eps_nonneg h.quad h.ne h.wf h.dens (touching_of_chain h.eps_nonneg h.wf h.chain)]
  obtain ⟨q1, q2⟩ := isQuantile_coe.1 hx
  rw [le_antisymm ((Iic_le_of_null ha).trans q1) q2]

/-- **C08**: where the distribution function crosses the level at exactly one point `a` (it is below the level left of `a`
and above it right of `a`), this point is the quantile -/
theorem C08_unique_partial (h : Setting eps q qp S l) {y a : ℝ} (h0 : 0 ≤ y) (h1 : y ≤ 1)
    (hl : ∀ b < a, (PF.law l).real (Iic b) < y) (hr : ∀ b, a < b → y < (PF.law l).real (Iio b)) :
    ∃ N, ∀ fuel, N ≤ fuel → quantile (par eps q qp S fuel) l y = .ok (some (a : EReal)) := by
  have := h.prob
  obtain ⟨x, hx, hN⟩ := C08_quantile_partial h h0 h1
  rwa [hx.unique hl hr] at hN

/-- **C08**: an atom that crosses the level is the quantile -/
theorem C08_atom_partial (h : Setting eps q qp S l) {y a : ℝ} (hl : (PF.law l).real (Iio a) < y) (hr : y < (PF.law l).real (Iic a)) :
    ∃ N, ∀ fuel, N ≤ fuel → quantile (par eps q qp S fuel) l y = .ok (some (a : EReal)) := by
  have := h.prob
  refine C08_unique_partial h (measureReal_nonneg.trans hl.le) (hr.le.trans measureReal_le_one) (fun b hb => ?_) fun b hb => ?_
  · exact lt_of_le_of_lt (measureReal_mono fun t (ht : t ≤ b) => lt_of_le_of_lt ht hb) hl
  · exact lt_of_lt_of_le hr (measureReal_mono fun t (ht : t ≤ a) => lt_of_le_of_lt ht hb)

/-- **C08** for an array of levels -/
theorem C08_array_partial (h : Setting eps q qp S l) : ∀ {ys : List ℝ}, (∀ y ∈ ys, 0 ≤ y ∧ y ≤ 1) →
    ∃ xs : List EReal, List.Forall₂ (IsQuantile (PF.law l)) ys xs ∧
      ∃ N, ∀ fuel, N ≤ fuel → quantiles (par eps q qp S fuel) l ys = .ok (xs.map some)
  | [], _ => ⟨[], .nil, 0, fun _ _ => rfl⟩
  | y :: ys, hy => by
    obtain ⟨x, hx, N, hN⟩ := C08_quantile_partial h (hy y (by simp)).1 (hy y (by simp)).2
    obtain ⟨xs, hxs, M, hM⟩ := C08_array_partial h (ys := ys) fun z hz => hy z (by simp [hz])
    refine ⟨x :: xs, .cons hx hxs, max N M, fun fuel hf => ?_⟩
    have e1 := hN fuel ((le_max_left _ _).trans hf)
    have e2 := hM fuel ((le_max_right _ _).trans hf)
    rw [quantiles] at e2 ⊢
    rw [List.mapM_cons, e1, e2]
    rfl

theorem loop1_none (P : Finding) {y : ℝ} : ∀ {c : PF ℝ} (x : Option Flt), (∀ s ∈ c, ¬ Hit y s) → loop1 P y c x = .ok x
  | [], x, _ => rfl
  | s :: c, x, h => by
    rw [loop1, if_neg (h s (by simp)), loop1_none P x fun t ht => h t (List.mem_cons_of_mem _ ht)]

theorem loop2_none (brk : List EReal) {y : ℝ} (x : Option Flt) : ∀ {c : PF ℝ} (i : ℕ), ((∀ s ∈ c, s.valLo < y) ∨ ∀ s ∈ c, y < s.valHi) →
    loop2 brk y i c x = x
  | [], _, _ => rfl
  | [_], _, _ => rfl
  | s :: t :: c, i, h => by
    rw [loop2, if_neg, loop2_none brk x (i + 1) (h.imp (fun h u hu => h u (List.mem_cons_of_mem _ hu)) fun h u hu => h u (List.mem_cons_of_mem _ hu))]
    rintro ⟨h1, h2⟩
    rcases h with h | h
    · exact absurd (h t (by simp)) (not_lt.2 h2)
    · exact absurd (h s (by simp)) (not_lt.2 h1)

/-- **C08** for a CDF that does not reach the level (a tail that is cut off): `inf` if all values are below the level,
`-inf` if all are above it; for every piecewise function -/
theorem C08_beyond (P : Finding) {c : PF ℝ} (hc : c ≠ []) {y : ℝ} (h0 : 0 ≤ y) (h1 : y ≤ 1) :
    ((∀ s ∈ c, s.valLo < y ∧ s.valHi < y) → inverseScalar P c y = .ok (some ⊤)) ∧
    ((∀ s ∈ c, y < s.valLo ∧ y < s.valHi) → inverseScalar P c y = .ok (some ⊥)) := by
  constructor
  · intro h
    have e1 : ∀ s ∈ c, ¬ Hit y s := by
      rintro s hs (⟨-, h'⟩ | ⟨h', -⟩)
      · exact absurd (h s hs).2 (not_lt.2 h')
      · exact absurd (h s hs).1 (not_lt.2 h')
    rw [inverseScalar, loop1_none P none e1, Except.bind]
    refine (congrArg (fixCdf c y) (loop2_none _ none 0 (.inl fun s hs => (h s hs).1))).trans ?_
    rw [fixCdf, if_neg hc,
      if_pos ⟨h1, fun s hs => max_lt (h s hs).1 (h s hs).2⟩]
  · intro h
    have e1 : ∀ s ∈ c, ¬ Hit y s := by
      rintro s hs (⟨h', -⟩ | ⟨-, h'⟩)
      · exact absurd (h s hs).1 (not_lt.2 h')
      · exact absurd (h s hs).2 (not_lt.2 h')
    rw [inverseScalar, loop1_none P none e1, Except.bind]
    refine (congrArg (fixCdf c y) (loop2_none _ none 0 (.inr fun s hs => (h s hs).2))).trans ?_
    rw [fixCdf, if_neg hc,
      if_neg, if_pos ⟨h0, fun s hs => lt_min (h s hs).1 (h s hs).2⟩]
    rintro ⟨-, h'⟩
    obtain ⟨s, hs⟩ := List.exists_mem_of_ne_nil c hc
    exact absurd (lt_of_le_of_lt (le_max_left _ _) (h' s hs)) (not_lt.2 (h s hs).1.le)

example : inverseScalar ⟨ivtFinder, fun _ => true, 0⟩ [.const 0 1 (1 / 2)] (3 / 4) = .ok (some ⊤) :=
  (C08_beyond _ (by simp) (by norm_num) (by norm_num)).1 (by
    intro s hs
    rw [List.mem_singleton] at hs
    subst hs
    constructor <;> show (1 / 2 : ℝ) < 3 / 4 <;> norm_num)

/-- two quantiles at once -/
theorem pair_spec (h : Setting eps q qp S l) {u v : ℝ} (hu0 : 0 ≤ u) (huv : u < v) (hv1 : v ≤ 1) :
    ∃ a b : EReal, IsQuantile (PF.law l) u a ∧ IsQuantile (PF.law l) v b ∧
      ∃ N, ∀ fuel, N ≤ fuel → pair (par eps q qp S fuel) l u v = .ok (some a, some b) := by
  obtain ⟨a, ha, N, hN⟩ := C08_quantile_partial h hu0 (huv.le.trans hv1)
  obtain ⟨b, hb, M, hM⟩ := C08_quantile_partial h (hu0.trans huv.le) hv1
  refine ⟨a, b, ha, hb, max N M, fun fuel hf => ?_⟩
  rw [pair, hN fuel ((le_max_left _ _).trans hf), hM fuel ((le_max_right _ _).trans hf)]
  rfl

/-- **C09**: `ci(p)` is an ordered pair of the quantiles for `p/2` and `1-p/2`; it encloses probability at least `1 - p` -/
theorem C09_ci_partial (h : Setting eps q qp S l) {p : ℝ} (h0 : 0 ≤ p) (h1 : p < 1) :
    ∃ a b : EReal, a ≤ b ∧ IsQuantile (PF.law l) (p / 2) a ∧ IsQuantile (PF.law l) (1 - p / 2) b ∧
      1 - p ≤ (PF.law l).real {t : ℝ | a ≤ t ∧ (t : EReal) ≤ b} ∧
      ∃ N, ∀ fuel, N ≤ fuel → ci (par eps q qp S fuel) l p = .ok (some a, some b) := by
  have := h.prob
  obtain ⟨a, b, ha, hb, hN⟩ := pair_spec h (u := p / 2) (v := 1 - p / 2) (by linarith) (by linarith) (by linarith)
  refine ⟨a, b, ha.le hb (by linarith), ha, hb, ?_, hN⟩
  exact le_trans (by linarith) (ha.cover hb)

/-- **C09**: `interval(p)` encloses probability at least `p` -/
theorem C09_interval_partial (h : Setting eps q qp S l) {p : ℝ} (h0 : 0 < p) (h1 : p ≤ 1) :
    ∃ a b : EReal, a ≤ b ∧ p ≤ (PF.law l).real {t : ℝ | a ≤ t ∧ (t : EReal) ≤ b} ∧
      ∃ N, ∀ fuel, N ≤ fuel → interval (par eps q qp S fuel) l p = .ok (some a, some b) := by
  have := h.prob
  obtain ⟨a, b, ha, hb, hN⟩ := pair_spec h (u := (1 - p) / 2) (v := 1 - (1 - p) / 2) (by linarith) (by linarith) (by linarith)
  refine ⟨a, b, ha.le hb (by linarith), ?_, hN⟩
  exact le_trans (by linarith) (ha.cover hb)

/-- **C09**: without atoms the enclosed probability of `ci(p)` is exactly `1 - p` -/
theorem C09_exact_partial (h : Setting eps q qp S l) (hat : ∀ x, PF.law l {x} = 0) {p : ℝ} (h0 : 0 < p) (h1 : p < 1) :
    ∃ a b : ℝ, a ≤ b ∧ (PF.law l).real (Icc a b) = 1 - p ∧
      ∃ N, ∀ fuel, N ≤ fuel → ci (par eps q qp S fuel) l p = .ok (some (a : EReal), some (b : EReal)) := by
  have := h.prob
  obtain ⟨a, b, hab, ha, hb, hc, hN⟩ := C09_ci_partial h h0.le h1
  obtain ⟨r, rfl⟩ := ha.finite (by linarith) (by linarith)
  obtain ⟨s, rfl⟩ := hb.finite (by linarith) (by linarith)
  have e : {t : ℝ | (r : EReal) ≤ t ∧ (t : EReal) ≤ s} = Icc r s := by ext t; simp
  rw [e] at hc
  refine ⟨r, s, EReal.coe_le_coe_iff.1 hab, le_antisymm ?_ hc, hN⟩
  have hrs := EReal.coe_le_coe_iff.1 hab
  have d : (PF.law l).real (Iio r) + (PF.law l).real (Icc r s) = (PF.law l).real (Iic s) := by
    rw [← measureReal_union (s₁ := Iio r) (disjoint_left.2 fun t h1 h2 => not_le.2 h1 h2.1) measurableSet_Icc,
      Iio_union_Icc_eq_Iic hrs]
  have q1 := (isQuantile_coe.1 ha).2.trans (Iic_le_of_null (hat r))
  have q2 := (Iic_le_of_null (hat s)).trans (isQuantile_coe.1 hb).1
  linarith

/-- **C09**: the two interval functions agree, for every distribution -/
theorem C09_interval_eq_ci (P : Par) (l : PF ℝ) (p : ℝ) : interval P l p = ci P l (1 - p) := rfl

/-- **C09**: `ci` consists of the two values of `quantile`, for every distribution -/
theorem C09_ci_eq (P : Par) (l : PF ℝ) (p : ℝ) {a b : Flt} :
    ci P l p = .ok (a, b) ↔ quantile P l (p / 2) = .ok a ∧ quantile P l (1 - p / 2) = .ok b := by
  rw [ci, pair]
  cases h1 : quantile P l (p / 2) <;> cases h2 : quantile P l (1 - p / 2) <;> simp [Except.bind, Except.map]

/-- **C09**: `iqrange(p/2)` is the width of `ci(p)`, for every distribution -/
theorem C09_iqrange (P : Par) (l : PF ℝ) (p : ℝ) {a b : ℝ} (h : ci P l p = .ok (some (a : EReal), some (b : EReal))) :
    iqrange P l (p / 2) = .ok (some ((b - a : ℝ) : EReal)) := by
  obtain ⟨h1, h2⟩ := (C09_ci_eq P l p).1 h
  rw [iqrange, h1, h2]
  simp [Except.bind, Except.map, fltSub]

/-- **C09**: the median has at most half of the probability on either side -/
theorem C09_median_partial (h : Setting eps q qp S l) :
    ∃ m : ℝ, (PF.law l).real (Iio m) ≤ 1 / 2 ∧ (PF.law l).real (Ioi m) ≤ 1 / 2 ∧
      ∃ N, ∀ fuel, N ≤ fuel → median (par eps q qp S fuel) l = .ok (some (m : EReal)) := by
  have := h.prob
  obtain ⟨x, hx, hN⟩ := C08_quantile_partial h (y := 1 / 2) (by norm_num) (by norm_num)
  obtain ⟨m, rfl⟩ := hx.finite (by norm_num) (by norm_num)
  obtain ⟨q1, q2⟩ := isQuantile_coe.1 hx
  refine ⟨m, q1, ?_, hN⟩
  rw [← compl_Iic, probReal_compl_eq_one_sub measurableSet_Iic]
  linarith

/-- **C60**: the sampler applied to a uniform random level has the distribution of the variable: there is a function `Q`
which the sampler computes for every level in `(0, 1)`, and the distribution of `Q(U)` for `U` uniform on `(0, 1)` is the
given one. -/
theorem C60_sampling_partial (h : Setting eps q qp S l) :
    ∃ Q : ℝ → ℝ, (∀ us : List ℝ, (∀ u ∈ us, u ∈ Ioo (0 : ℝ) 1) →
        ∃ N, ∀ fuel, N ≤ fuel → rand (par eps q qp S fuel) l us = .ok (us.map fun u => some (Q u : EReal))) ∧
      (volume.restrict (Ioo (0 : ℝ) 1)).map Q = PF.law l ∧ AEMeasurable Q (volume.restrict (Ioo (0 : ℝ) 1)) := by
  have := h.prob
  have key : ∀ u : ℝ, ∃ x : ℝ, u ∈ Ioo (0 : ℝ) 1 → IsQuantile (PF.law l) u (x : EReal) ∧
      ∃ N, ∀ fuel, N ≤ fuel → quantile (par eps q qp S fuel) l u = .ok (some (x : EReal)) := by
    intro u
    by_cases hu : u ∈ Ioo (0 : ℝ) 1
    · obtain ⟨x, hx, hN⟩ := C08_quantile_partial h hu.1.le hu.2.le
      obtain ⟨r, rfl⟩ := hx.finite hu.1 hu.2
      exact ⟨r, fun _ => ⟨hx, hN⟩⟩
    · exact ⟨0, fun h => absurd h hu⟩
  choose Q hQ using key
  obtain ⟨m1, m2⟩ := map_quantile (μ := PF.law l) fun u hu => (hQ u hu).1
  refine ⟨Q, ?_, m2, m1⟩
  intro us
  induction us with
  | nil => exact fun _ => ⟨0, fun _ _ => rfl⟩
  | cons u us ih =>
    intro hu
    obtain ⟨M, hM⟩ := ih fun v hv => hu v (by simp [hv])
    obtain ⟨-, N, hN⟩ := hQ u (hu u (by simp))
    refine ⟨max N M, fun fuel hf => ?_⟩
    have e1 := hN fuel ((le_max_left _ _).trans hf)
    have e2 := hM fuel ((le_max_right _ _).trans hf)
    rw [rand, quantiles] at e2 ⊢
    rw [List.mapM_cons, e1, e2]
    rfl

/-! ### violations -/

/-- **C08** fails for atoms with nothing in between: for a fair coin with values 0 and 1, `quantile(1/4)` is 1, although
`P(X < 1) = 1/2`. -/
theorem C08_violated_two_atoms (hq : ExactQ q qp) (S : Finder ℝ) (fuel : ℕ) :
    let l : PF ℝ := [.dirac 0 (1 / 2), .dirac 1 (1 / 2)]
    PF.WF 0 l ∧ PF.Dens l ∧ quantile (par 0 q qp S fuel) l (1 / 4) = .ok (some (1 : ℝ)) ∧
      ¬ IsQuantile (PF.law l) (1 / 4) (1 : ℝ) := by
  obtain ⟨hw, hd, -, -, -, hI⟩ := coin_facts
  refine ⟨hw, hd, coin_quantile hq S fuel (by norm_num) (by norm_num), fun hc => ?_⟩
  have := (isQuantile_coe.1 hc).1
  rw [hI] at this
  norm_num at this

/-- **C09** fails for a fair coin with values 0 and 1: every `ci(p)` is the single point 1, which has probability 1/2 and
not at least `1 - p`. -/
theorem C09_violated_coin (hq : ExactQ q qp) (S : Finder ℝ) (fuel : ℕ) {p : ℝ} (h0 : 0 < p) (h1 : p < 1 / 2) :
    let l : PF ℝ := [.dirac 0 (1 / 2), .dirac 1 (1 / 2)]
    PF.WF 0 l ∧ PF.Dens l ∧ (PF.law l).real univ = 1 ∧
      ci (par 0 q qp S fuel) l p = .ok (some ((1 : ℝ) : EReal), some ((1 : ℝ) : EReal)) ∧
      (PF.law l).real (Icc 1 1) < 1 - p := by
  obtain ⟨hw, hd, ht, -, h1', -⟩ := coin_facts
  refine ⟨hw, hd, ht, (C09_ci_eq _ _ _).2 ⟨coin_quantile hq S fuel (by linarith) (by linarith),
    coin_quantile hq S fuel (by linarith) (by linarith)⟩, ?_⟩
  rw [Icc_self, h1']
  linarith

/-- **C60** fails for a fair coin with values 0 and 1: whatever is drawn, every sampled value is 1, although the value 0 has
probability 1/2. -/
theorem C60_violated_coin (hq : ExactQ q qp) (S : Finder ℝ) (fuel : ℕ) (us : List ℝ) (hu : ∀ u ∈ us, u ∈ Ioo (0 : ℝ) 1) :
    let l : PF ℝ := [.dirac 0 (1 / 2), .dirac 1 (1 / 2)]
    PF.WF 0 l ∧ PF.Dens l ∧ (PF.law l).real {0} = 1 / 2 ∧
      rand (par 0 q qp S fuel) l us = .ok (us.map fun _ => some ((1 : ℝ) : EReal)) := by
  obtain ⟨hw, hd, -, h0, -⟩ := coin_facts
  refine ⟨hw, hd, h0, ?_⟩
  induction us with
  | nil => rfl
  | cons u us ih =>
    have e1 := coin_quantile hq S fuel (hu u (by simp)).1 (hu u (by simp)).2
    have e2 := ih fun v hv => hu v (List.mem_cons_of_mem _ hv)
    rw [rand, quantiles] at e2 ⊢
    rw [List.mapM_cons, e1, e2]
    rfl

/-- **C08** (and C09) fail for a distribution with a gap: for the density 1/4 on `[0, 1]` and `[2, 3]` and 1/2 on `[3, 4]`
the median is 2, although `P(X ≤ 2) = 1/4`: the break points are counted as if there were no gap. -/
theorem C08_violated_gap (hq : ExactQ q qp) {S : Finder ℝ} (hS : ExactFinder S) (fuel : ℕ) :
    let l : PF ℝ := [.const 0 1 (1 / 4), .const 2 3 (1 / 4), .const 3 4 (1 / 2)]
    PF.WF 0 l ∧ PF.Dens l ∧ (PF.law l).real univ = 1 ∧ median (par 0 q qp S fuel) l = .ok (some (2 : ℝ)) ∧
      ¬ IsQuantile (PF.law l) (1 / 2) (2 : ℝ) := by
  intro l
  have d1 : (Seg.const 0 1 (1 / 4)).Dens := const_dens 0 1 (by norm_num)
  have d2 : (Seg.const 2 3 (1 / 4)).Dens := const_dens 2 3 (by norm_num)
  have d3 : (Seg.const 3 4 (1 / 2)).Dens := const_dens 3 4 (by norm_num)
  have hw : PF.WF 0 l := by
    refine ⟨?_, ?_⟩
    · simp only [l, List.mem_cons, List.not_mem_nil, or_false, forall_eq_or_imp, forall_eq, Seg.WF]; norm_num
    · simp only [l, List.pairwise_cons, List.mem_cons, List.not_mem_nil, or_false, forall_eq_or_imp, forall_eq]
      refine ⟨⟨⟨ext_le.2 (by norm_num), by simp⟩, ext_le.2 (by norm_num), by simp⟩, ⟨ext_le.2 (by norm_num), by simp⟩, by simp, .nil⟩
  have hd : PF.Dens l := by
    simp only [l, PF.Dens, List.mem_cons, List.not_mem_nil, or_false, forall_eq_or_imp, forall_eq]
    exact ⟨d1, d2, d3⟩
  have hsum : ∀ A, (PF.law l).real A = (Seg.const 0 1 (1 / 4)).law.real A + ((Seg.const 2 3 (1 / 4)).law.real A +
      (Seg.const 3 4 (1 / 2)).law.real A) := by
    intro A
    rw [PF.law_real_eq_sum hd]; simp [l]
  have m1 := const_mass 0 1 (c := 1 / 4) (by norm_num) (by norm_num)
  have m2 := const_mass 2 3 (c := 1 / 4) (by norm_num) (by norm_num)
  have m3 := const_mass 3 4 (c := 1 / 2) (by norm_num) (by norm_num)
  have ht : (PF.law l).real univ = 1 := by rw [hsum, m1, m2, m3]; norm_num
  refine ⟨hw, hd, ht, ?_, ?_⟩
  · obtain ⟨T, hT1, -, u, F, huF, huw, hun, -, hf⟩ := cumint_shape le_rfl hq (by simp [l]) hw hd
    obtain ⟨B, rfl, s, hs, hB⟩ := hT1 (by simp [l, Seg.isPInf])
    obtain rfl : Seg.const 3 4 (1 / 2) = s := by simpa [l] using hs
    obtain rfl : B = 4 := by simpa [Seg.hi, Ext.fin, eq_comm] using hB
    have hcum : cumSegs q qp 0 l = [(Seg.const 0 1 (1 / 4)).cumint q qp 0, (Seg.const 2 3 (1 / 4)).cumint q qp (1 / 4),
        (Seg.const 3 4 (1 / 2)).cumint q qp (1 / 2)] := by
      have : cumSegs q qp 0 l = [(Seg.const 0 1 (1 / 4)).cumint q qp 0,
        (Seg.const 2 3 (1 / 4)).cumint q qp (0 + (Seg.const 0 1 (1 / 4)).law.real univ),
        (Seg.const 3 4 (1 / 2)).cumint q qp (0 + (Seg.const 0 1 (1 / 4)).law.real univ + (Seg.const 2 3 (1 / 4)).law.real univ)] := rfl
      rw [this, m1, m2]; norm_num
    rw [hcum, ht] at huF
    obtain ⟨rfl, rfl⟩ := List.cons.inj huF
    obtain ⟨e, hw'⟩ := hf 0 rfl
    obtain ⟨c1, hc1⟩ : ∃ c1, c1 = (Seg.const 0 1 (1 / 4)).cumint q qp 0 := ⟨_, rfl⟩
    obtain ⟨c2, hc2⟩ : ∃ c2, c2 = (Seg.const 2 3 (1 / 4)).cumint q qp (1 / 4) := ⟨_, rfl⟩
    obtain ⟨c3, hc3⟩ : ∃ c3, c3 = (Seg.const 3 4 (1 / 2)).cumint q qp (1 / 2) := ⟨_, rfl⟩
    have v1 : c1.valLo = 0 ∧ c1.valHi = 1 / 4 := by rw [hc1, valLo_const _ _ (by norm_num), valHi_const]; norm_num
    have v2 : c2.valLo = 1 / 4 ∧ c2.valHi = 1 / 2 := by rw [hc2, valLo_const _ _ (by norm_num), valHi_const]; norm_num
    have v3 : c3.valLo = 1 / 2 ∧ c3.valHi = 1 := by rw [hc3, valLo_const _ _ (by norm_num), valHi_const]; norm_num
    have v0 : (Seg.minf 0 (fun _ : ℝ => (0 : ℝ))).valLo = 0 ∧ (Seg.minf 0 (fun _ : ℝ => (0 : ℝ))).valHi = 0 := ⟨lim_const_bot 0, rfl⟩
    have v4 : (Seg.pinf 4 (fun _ : ℝ => (1 : ℝ))).valLo = 1 ∧ (Seg.pinf 4 (fun _ : ℝ => (1 : ℝ))).valHi = 1 := ⟨rfl, lim_const_top 1⟩
    have l1 : c1.lo = .fin 0 ∧ c1.hi = .fin 1 := by rw [hc1]; exact ⟨rfl, rfl⟩
    have l2 : c2.lo = .fin 2 ∧ c2.hi = .fin 3 := by rw [hc2]; exact ⟨rfl, rfl⟩
    have l3 : c3.lo = .fin 3 ∧ c3.hi = .fin 4 := by rw [hc3]; exact ⟨rfl, rfl⟩
    -- the searches on the two pieces which contain the level succeed
    obtain ⟨x2, f2⟩ := solveSeg_const hS (fun _ => true) fuel q qp (a := 2) (b := 3) (c := 1 / 4) (y0 := 1 / 4) (y := 1 / 2) (by norm_num)
      (by norm_num) (by norm_num)
    obtain ⟨x3, f3⟩ := solveSeg_const hS (fun _ => true) fuel q qp (a := 3) (b := 4) (c := 1 / 2) (y0 := 1 / 2) (y := 1 / 2) (by norm_num)
      (by norm_num) (by norm_num)
    rw [← hc2] at f2
    rw [← hc3] at f3
    have hbr : PF.getBreaks [.minf (0 : ℝ) (fun _ => 0), c1, c2, c3, .pinf 4 fun _ => 1] =
        [.ninf, .fin 0, .fin 1, .fin 2, .fin 3, .fin 4, .pinf] := by
      refine getBreaks_eq ?_ fun x => ?_
      · have h := (PF_pairs (by norm_num : (0 : ℝ) < 1) (by norm_num : (1 : ℝ) < 2) (by norm_num : (2 : ℝ) < 3) (by norm_num : (3 : ℝ) < 4))
        exact h
      · rw [mem_getBreaks]
        simp only [List.mem_cons, List.not_mem_nil, or_false, exists_eq_or_imp, exists_eq_left, l1, l2, l3]
        constructor
        · rintro ((h | h) | (h | h) | (h | h) | (h | h) | (h | h)) <;> rw [h] <;> simp [Seg.lo, Seg.hi]
        · rintro (h | h | h | h | h | h | h) <;> rw [h] <;> simp [Seg.lo, Seg.hi]
    have n0 : ¬ Hit (1 / 2) (Seg.minf 0 (fun _ : ℝ => (0 : ℝ))) := by rw [Hit, v0.1, v0.2]; norm_num
    have n1 : ¬ Hit (1 / 2) c1 := by rw [Hit, v1.1, v1.2]; norm_num
    have n2 : Hit (1 / 2) c2 := by rw [Hit, v2.1, v2.2]; norm_num
    have n3 : Hit (1 / 2) c3 := by rw [Hit, v3.1, v3.2]; norm_num
    have n4 : ¬ Hit (1 / 2) (Seg.pinf 4 (fun _ : ℝ => (1 : ℝ))) := by rw [Hit, v4.1, v4.2]; norm_num
    rw [median, quantile, e]
    show inverseScalar _ ([.minf (0 : ℝ) (fun _ => 0), (Seg.const 0 1 (1 / 4)).cumint q qp 0,
      (Seg.const 2 3 (1 / 4)).cumint q qp (1 / 4), (Seg.const 3 4 (1 / 2)).cumint q qp (1 / 2), .pinf 4 fun _ => 1]) _ = _
    rw [← hc1, ← hc2, ← hc3, inverseScalar, loop1, if_neg n0, loop1, if_neg n1, loop1, if_pos n2, f2]
    show Except.bind (loop1 _ _ _ _) _ = _
    rw [loop1, if_pos n3, f3]
    show Except.bind (loop1 _ _ _ _) _ = _
    rw [loop1, if_neg n4, loop1]
    show fixCdf _ _ (loop2 _ _ _ _ _) = _
    have g0 : ¬ ((Seg.minf 0 (fun _ : ℝ => (0 : ℝ))).valHi ≤ 1 / 2 ∧ 1 / 2 ≤ c1.valLo) := by rw [v1.1]; norm_num
    have g1 : ¬ (c1.valHi ≤ 1 / 2 ∧ 1 / 2 ≤ c2.valLo) := by rw [v2.1]; norm_num
    have g2 : c2.valHi ≤ 1 / 2 ∧ 1 / 2 ≤ c3.valLo := by rw [v2.2, v3.1]; exact ⟨le_rfl, le_rfl⟩
    have g3 : ¬ (c3.valHi ≤ 1 / 2 ∧ 1 / 2 ≤ (Seg.pinf 4 (fun _ : ℝ => (1 : ℝ))).valLo) := by rw [v3.2]; norm_num
    refine (congrArg (fixCdf _ _) ((loop2_neg _ _ _ _ g0).trans ((loop2_neg _ _ _ _ g1).trans ((loop2_pos _ _ _ _ g2).trans
      (loop2_neg _ _ _ _ g3))))).trans ?_
    rw [hbr]
    rfl
  · intro hc
    have := (isQuantile_coe.1 hc).2
    rw [hsum, law_Iic_left d1 (ext_le.2 (by norm_num)), m1, law_Iic_right d3 (ext_lt.2 (by norm_num))] at this
    have h2 : (Seg.const 2 3 (1 / 4)).law.real (Iic 2) = 0 := by
      rw [Seg.law_real rfl d2 measurableSet_Iic, ← integral_Iic_eq_integral_Iio.symm]
      exact setIntegral_eq_zero_of_forall_eq_zero fun x (hx : x < 2) => by
        rw [const_val, if_neg fun h => absurd h.1 (not_le.2 hx)]
    rw [h2] at this
    norm_num at this

/-! ### non-vacuity -/

example : ∃ N, ∀ fuel, N ≤ fuel → quantile (par 0 exactQuad ⟨0, 10, 6, 8⟩ ivtFinder fuel) exDistr (9 / 10) = .ok (some ((1 : ℝ) : EReal)) := by
  refine C08_atom_partial exDistr_setting ?_ ?_
  · rw [exDistr_law _ measurableSet_Iio]
    have : (Seg.const 0 1 (1 / 2)).law.real (Iio 1) ≤ 1 / 2 := by
      have := Seg.law_finite (const_dens 0 1 (c := 1 / 2) (by norm_num))
      refine (measureReal_mono (subset_univ _)).trans ?_
      rw [const_mass 0 1 (by norm_num) (by norm_num)]; norm_num
    norm_num [indicator]
    linarith
  · rw [exDistr_law _ measurableSet_Iic, law_Iic_left (const_dens 0 1 (by norm_num)) (ext_le.2 (by norm_num)),
      const_mass 0 1 (by norm_num) (by norm_num)]
    norm_num [indicator]

end Quantile
end Pacal
