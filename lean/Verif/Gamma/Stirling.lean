import Mathlib.Analysis.SpecialFunctions.Gamma.BohrMollerup
import Mathlib.Analysis.SpecialFunctions.Stirling
import Mathlib.Analysis.SpecialFunctions.Complex.LogBounds

/-!
Stirling's formula for the logarithm of the gamma function on the positive reals, with two explicit bounds of the remainder.
-/

namespace Pacal.Gamma
open Filter Topology

/-- the main term of Stirling's formula -/
noncomputable def stir (x : ℝ) : ℝ := (x - 1 / 2) * Real.log x - x + Real.log (2 * Real.pi) / 2

/-- the remainder -/
noncomputable def mu (x : ℝ) : ℝ := Real.log (Real.Gamma x) - stir x

/-- lower bound of the remainder -/
noncomputable def rlo (x : ℝ) : ℝ := 1 / (12 * x) - 1 / (360 * x ^ 3) + 1 / (1260 * x ^ 5) - 1 / (1680 * x ^ 7)

/-- upper bound of the remainder -/
noncomputable def rup (x : ℝ) : ℝ := rlo x + 1 / (1188 * x ^ 9)

theorem log_gamma_add_one {x : ℝ} (hx : 0 < x) :
    Real.log (Real.Gamma (x + 1)) = Real.log (Real.Gamma x) + Real.log x := by
  rw [Real.Gamma_add_one hx.ne', Real.log_mul hx.ne' (Real.Gamma_pos_of_pos hx).ne', add_comm]

theorem log_gamma_add_nat {x : ℝ} (hx : 0 < x) (n : ℕ) :
    Real.log (Real.Gamma (x + n)) = Real.log (Real.Gamma x) + ∑ m ∈ Finset.range n, Real.log (x + m) :=
  Real.BohrMollerup.f_add_nat_eq (f := fun y => Real.log (Real.Gamma y)) (fun {_} hy => log_gamma_add_one hy) hx n

/-- the remainder tends to zero along `x + n + 1` -/
theorem tendsto_mu {x : ℝ} (hx : 0 < x) : Tendsto (fun n : ℕ => mu (x + (n + 1 : ℕ))) atTop (𝓝 0) := by
  have h1 := Real.BohrMollerup.tendsto_log_gamma hx
  have h2 : Tendsto (fun n : ℕ => Real.log (Stirling.stirlingSeq n)) atTop (𝓝 (Real.log (√Real.pi))) :=
    ((Real.continuousAt_log (by positivity)).tendsto).comp Stirling.tendsto_stirlingSeq_sqrt_pi
  have hat := tendsto_natCast_atTop_atTop (R := ℝ)
  have h3 : Tendsto (fun n : ℕ => (n : ℝ) * Real.log (1 + (x + 1) / n)) atTop (𝓝 (x + 1)) :=
    (Real.tendsto_mul_log_one_add_div_atTop (x + 1)).comp hat
  have h4 : Tendsto (fun n : ℕ => Real.log (1 + (x + 1) / n)) atTop (𝓝 0) := by
    have : Tendsto (fun n : ℕ => 1 + (x + 1) / (n : ℝ)) atTop (𝓝 (1 + 0)) :=
      tendsto_const_nhds.add (tendsto_const_nhds.div_atTop hat)
    have h5 := (Real.continuousAt_log (x := 1 + 0) (by norm_num)).tendsto.comp this
    simpa [Function.comp_def] using h5
  have h6 : Tendsto (fun n : ℕ => (Real.log (Real.Gamma x) - Real.BohrMollerup.logGammaSeq x n)
      + (Real.log (Stirling.stirlingSeq n) - Real.log (√Real.pi))
      - ((n : ℝ) * Real.log (1 + (x + 1) / n) + (x + 1 / 2) * Real.log (1 + (x + 1) / n) - (x + 1))) atTop
      (𝓝 ((Real.log (Real.Gamma x) - Real.log (Real.Gamma x)) + (Real.log (√Real.pi) - Real.log (√Real.pi))
        - ((x + 1) + (x + 1 / 2) * 0 - (x + 1)))) :=
    ((tendsto_const_nhds.sub h1).add (h2.sub tendsto_const_nhds)).sub
      ((h3.add (tendsto_const_nhds.mul h4)).sub tendsto_const_nhds)
  have e0 : (Real.log (Real.Gamma x) - Real.log (Real.Gamma x)) + (Real.log (√Real.pi) - Real.log (√Real.pi))
        - ((x + 1) + (x + 1 / 2) * 0 - (x + 1)) = 0 := by ring
  rw [e0] at h6
  refine h6.congr' ?_
  filter_upwards [eventually_gt_atTop 0] with n hn
  have hn' : (0 : ℝ) < n := by exact_mod_cast hn
  rw [mu, log_gamma_add_nat hx, Real.BohrMollerup.logGammaSeq, Stirling.log_stirlingSeq_formula, stir]
  have e1 : Real.log (1 + (x + 1) / n) = Real.log (x + (n + 1 : ℕ)) - Real.log n := by
    rw [← Real.log_div (by positivity) hn'.ne']
    congr 1
    push_cast
    field_simp
    ring
  have e2 : Real.log ((n : ℝ) / Real.exp 1) = Real.log n - 1 := by
    rw [Real.log_div hn'.ne' (Real.exp_pos 1).ne', Real.log_exp]
  have e3 : Real.log (√Real.pi) = Real.log Real.pi / 2 := Real.log_sqrt Real.pi_pos.le
  rw [e1, e2, e3, Real.log_mul two_ne_zero hn'.ne', Real.log_mul two_ne_zero Real.pi_pos.ne']
  push_cast
  ring

theorem tendsto_rlo (x : ℝ) : Tendsto (fun n : ℕ => rlo (x + (n + 1 : ℕ))) atTop (𝓝 0) := by
  have hat : Tendsto (fun n : ℕ => x + ((n + 1 : ℕ) : ℝ)) atTop atTop :=
    tendsto_atTop_add_const_left _ _ ((tendsto_natCast_atTop_atTop (R := ℝ)).comp (tendsto_add_atTop_nat 1))
  have hp : ∀ (c : ℝ) (k : ℕ), 0 < c → k ≠ 0 → Tendsto (fun n : ℕ => 1 / (c * (x + ((n + 1 : ℕ) : ℝ)) ^ k)) atTop (𝓝 0) :=
    fun c k hc hk => tendsto_const_nhds.div_atTop (((tendsto_pow_atTop hk).comp hat).const_mul_atTop hc)
  have := (((hp 12 1 (by norm_num) (by norm_num)).sub (hp 360 3 (by norm_num) (by norm_num))).add
    (hp 1260 5 (by norm_num) (by norm_num))).sub (hp 1680 7 (by norm_num) (by norm_num))
  simpa [rlo] using this

theorem tendsto_rup (x : ℝ) : Tendsto (fun n : ℕ => rup (x + (n + 1 : ℕ))) atTop (𝓝 0) := by
  have hat : Tendsto (fun n : ℕ => x + ((n + 1 : ℕ) : ℝ)) atTop atTop :=
    tendsto_atTop_add_const_left _ _ ((tendsto_natCast_atTop_atTop (R := ℝ)).comp (tendsto_add_atTop_nat 1))
  have h : Tendsto (fun n : ℕ => 1 / (1188 * (x + ((n + 1 : ℕ) : ℝ)) ^ 9)) atTop (𝓝 0) :=
    tendsto_const_nhds.div_atTop (((tendsto_pow_atTop (by norm_num)).comp hat).const_mul_atTop (by norm_num))
  have := (tendsto_rlo x).add h
  simpa [rup] using this

theorem mu_sub {x : ℝ} (hx : 0 < x) : mu x - mu (x + 1) = (x + 1 / 2) * Real.log (1 + 1 / x) - 1 := by
  have e : Real.log (1 + 1 / x) = Real.log (x + 1) - Real.log x := by
    rw [← Real.log_div (by positivity) hx.ne']
    congr 1
    field_simp
    try ring
  rw [mu, mu, stir, stir, log_gamma_add_one hx, e]
  ring

/-- the difference of consecutive remainders as a power series -/
theorem hasSum_mu_sub {x : ℝ} (hx : 0 < x) :
    HasSum (fun k : ℕ => ((1 / (2 * x + 1)) ^ 2) ^ (k + 1) / (2 * ((k + 1 : ℕ) : ℝ) + 1)) (mu x - mu (x + 1)) := by
  have h := (Real.hasSum_log_one_add_inv hx).mul_left (x + 1 / 2)
  replace h := (hasSum_nat_add_iff' 1).2 h
  rw [mu_sub hx]
  have h2 : 2 * x + 1 ≠ 0 := by positivity
  have e1 : (fun k : ℕ => ((1 / (2 * x + 1)) ^ 2) ^ (k + 1) / (2 * ((k + 1 : ℕ) : ℝ) + 1))
      = fun n : ℕ => (x + 1 / 2) * (2 * (1 / (2 * ((n + 1 : ℕ) : ℝ) + 1)) * (1 / (2 * x + 1)) ^ (2 * (n + 1) + 1)) := by
    funext k
    rw [← pow_mul, pow_succ (1 / (2 * x + 1)) (2 * (k + 1))]
    have h3 : (2 * ((k + 1 : ℕ) : ℝ) + 1) ≠ 0 := by positivity
    field_simp
  have e2 : (x + 1 / 2) * Real.log (1 + 1 / x) - 1 = (x + 1 / 2) * Real.log (1 + x⁻¹)
      - ∑ i ∈ Finset.range 1, (x + 1 / 2) * (2 * (1 / (2 * (i : ℝ) + 1)) * (1 / (2 * x + 1)) ^ (2 * i + 1)) := by
    rw [Finset.sum_range_one, one_div x]
    simp only [Nat.cast_zero, mul_zero, zero_add, pow_one]
    field_simp
  rw [e1, e2]
  exact h

/-- the telescoped bounds in terms of `w = 1 / (2 x + 1)²` -/
theorem rlo_sub {y : ℝ} (h0 : 0 < y) (h1 : y < 1) {x : ℝ} (hx : x = (1 - y) / (2 * y)) :
    rlo x - rlo (x + 1) = ((1 / 3) * (y ^ 2) ^ 1 + (-32 / 15) * (y ^ 2) ^ 2 + (201 / 35) * (y ^ 2) ^ 3 + (-376 / 45) * (y ^ 2) ^ 4 + (-7 / 9) * (y ^ 2) ^ 5 + (-1496 / 315) * (y ^ 2) ^ 6 + (59 / 315) * (y ^ 2) ^ 7) / (1 - y ^ 2) ^ 7 := by
  have hm : 1 - y ≠ 0 := by linarith
  have hp : 1 + y ≠ 0 := by linarith
  have e1 : x + 1 = (1 + y) / (2 * y) := by
    rw [hx]
    field_simp
    ring
  have e2 : 1 - y ^ 2 = (1 - y) * (1 + y) := by ring
  rw [rlo, rlo, e1, hx, e2]
  field_simp
  ring

theorem rup_sub {y : ℝ} (h0 : 0 < y) (h1 : y < 1) {x : ℝ} (hx : x = (1 - y) / (2 * y)) :
    rup x - rup (x + 1) = ((1 / 3) * (y ^ 2) ^ 1 + (-14 / 5) * (y ^ 2) ^ 2 + (362 / 35) * (y ^ 2) ^ 3 + (-6922 / 315) * (y ^ 2) ^ 4 + (11332 / 385) * (y ^ 2) ^ 5 + (210862 / 3465) * (y ^ 2) ^ 6 + (407186 / 3465) * (y ^ 2) ^ 7 + (9974 / 385) * (y ^ 2) ^ 8 + (10907 / 10395) * (y ^ 2) ^ 9) / (1 - y ^ 2) ^ 9 := by
  have hm : 1 - y ≠ 0 := by linarith
  have hp : 1 + y ≠ 0 := by linarith
  have e1 : x + 1 = (1 + y) / (2 * y) := by
    rw [hx]
    field_simp
    ring
  have e2 : 1 - y ^ 2 = (1 - y) * (1 + y) := by ring
  rw [rup, rup, rlo, rlo, e1, hx, e2]
  field_simp
  ring

theorem poly_lo {w : ℝ} (h0 : 0 < w) (h1 : w < 1) :
    ((1 / 3) * w ^ 1 + (-32 / 15) * w ^ 2 + (201 / 35) * w ^ 3 + (-376 / 45) * w ^ 4 + (-7 / 9) * w ^ 5 + (-1496 / 315) * w ^ 6 + (59 / 315) * w ^ 7) / (1 - w) ^ 7 ≤ (1 / 3) * w ^ 1 + (1 / 5) * w ^ 2 + (1 / 7) * w ^ 3 + (1 / 9) * w ^ 4 + (1 / 11) * w ^ 5 + (1 / 13) * w ^ 6 := by
  have hp : ∀ k : ℕ, w ^ k ≤ 1 := fun k => pow_le_one₀ h0.le h1.le
  have hq : ∀ k : ℕ, 0 ≤ w ^ k := fun k => (pow_pos h0 k).le
  rw [div_le_iff₀ (pow_pos (by linarith) 7)]
  have e : ((1 / 3) * w ^ 1 + (1 / 5) * w ^ 2 + (1 / 7) * w ^ 3 + (1 / 9) * w ^ 4 + (1 / 11) * w ^ 5 + (1 / 13) * w ^ 6) * (1 - w) ^ 7 - ((1 / 3) * w ^ 1 + (-32 / 15) * w ^ 2 + (201 / 35) * w ^ 3 + (-376 / 45) * w ^ 4 + (-7 / 9) * w ^ 5 + (-1496 / 315) * w ^ 6 + (59 / 315) * w ^ 7)
      = w ^ 5 * ((256 / 33) * w ^ 0 + (68608 / 45045) * w ^ 1 + (2141 / 5005) * w ^ 2 + (2504 / 6435) * w ^ 3 + (-2239 / 2145) * w ^ 4 + (12776 / 9009) * w ^ 5 + (-1403 / 1287) * w ^ 6 + (64 / 143) * w ^ 7 + (-1 / 13) * w ^ 8) := by ring
  have : 0 ≤ w ^ 5 * ((256 / 33) * w ^ 0 + (68608 / 45045) * w ^ 1 + (2141 / 5005) * w ^ 2 + (2504 / 6435) * w ^ 3 + (-2239 / 2145) * w ^ 4 + (12776 / 9009) * w ^ 5 + (-1403 / 1287) * w ^ 6 + (64 / 143) * w ^ 7 + (-1 / 13) * w ^ 8) := by
    refine mul_nonneg (hq 5) ?_
    linarith [hq 1, hq 2, hq 3, hq 5, hq 7, hp 4, hp 6, hp 8]
  linarith

theorem poly_up {w : ℝ} (h0 : 0 < w) (h1 : w < 1) :
    (1 / 3) * w ^ 1 + (1 / 5) * w ^ 2 + (1 / 7) * w ^ 3 + (1 / 9) * w ^ 4 + (1 / 11) * w ^ 5 + (1 / 13) * w ^ 6 + w ^ 7 / 15 / (1 - w) ≤ ((1 / 3) * w ^ 1 + (-14 / 5) * w ^ 2 + (362 / 35) * w ^ 3 + (-6922 / 315) * w ^ 4 + (11332 / 385) * w ^ 5 + (210862 / 3465) * w ^ 6 + (407186 / 3465) * w ^ 7 + (9974 / 385) * w ^ 8 + (10907 / 10395) * w ^ 9) / (1 - w) ^ 9 := by
  have hp : ∀ k : ℕ, w ^ k ≤ 1 := fun k => pow_le_one₀ h0.le h1.le
  have hq : ∀ k : ℕ, 0 ≤ w ^ k := fun k => (pow_pos h0 k).le
  have hw : 1 - w ≠ 0 := by linarith
  rw [le_div_iff₀ (pow_pos (by linarith) 9)]
  have e : ((1 / 3) * w ^ 1 + (-14 / 5) * w ^ 2 + (362 / 35) * w ^ 3 + (-6922 / 315) * w ^ 4 + (11332 / 385) * w ^ 5 + (210862 / 3465) * w ^ 6 + (407186 / 3465) * w ^ 7 + (9974 / 385) * w ^ 8 + (10907 / 10395) * w ^ 9) - ((1 / 3) * w ^ 1 + (1 / 5) * w ^ 2 + (1 / 7) * w ^ 3 + (1 / 9) * w ^ 4 + (1 / 11) * w ^ 5 + (1 / 13) * w ^ 6 + w ^ 7 / 15 / (1 - w)) * (1 - w) ^ 9
      = w ^ 6 * ((353792 / 4095) * w ^ 0 + (423424 / 4095) * w ^ 1 + (41642 / 1365) * w ^ 2 + (4786 / 12285) * w ^ 3 + (-2426 / 15015) * w ^ 4 + (4558 / 15015) * w ^ 5 + (-4694 / 15015) * w ^ 6 + (1258 / 6435) * w ^ 7 + (-146 / 2145) * w ^ 8 + (2 / 195) * w ^ 9) := by
    field_simp
    ring
  have : 0 ≤ w ^ 6 * ((353792 / 4095) * w ^ 0 + (423424 / 4095) * w ^ 1 + (41642 / 1365) * w ^ 2 + (4786 / 12285) * w ^ 3 + (-2426 / 15015) * w ^ 4 + (4558 / 15015) * w ^ 5 + (-4694 / 15015) * w ^ 6 + (1258 / 6435) * w ^ 7 + (-146 / 2145) * w ^ 8 + (2 / 195) * w ^ 9) := by
    refine mul_nonneg (hq 6) ?_
    linarith [hq 1, hq 2, hq 3, hq 5, hq 7, hp 4, hp 6, hp 8, hq 9]
  linarith

/-- the six first terms and the geometric series bound the difference -/
theorem mu_sub_bounds {x : ℝ} (hx : 0 < x) {w : ℝ} (hw : w = (1 / (2 * x + 1)) ^ 2) :
    ∑ k ∈ Finset.range 6, w ^ (k + 1) / (2 * ((k + 1 : ℕ) : ℝ) + 1) ≤ mu x - mu (x + 1) ∧
    mu x - mu (x + 1) ≤ ∑ k ∈ Finset.range 6, w ^ (k + 1) / (2 * ((k + 1 : ℕ) : ℝ) + 1) + w ^ 7 / 15 / (1 - w) := by
  have h := hasSum_mu_sub hx
  rw [← hw] at h
  have h0 : 0 ≤ w := by rw [hw]; positivity
  have h1 : w < 1 := by
    rw [hw]
    refine pow_lt_one₀ (by positivity) ?_ two_ne_zero
    rw [div_lt_one (by positivity)]
    linarith
  constructor
  · exact sum_le_hasSum _ (fun k _ => by positivity) h
  · have h2 := (hasSum_nat_add_iff' 6).2 h
    have h3 : HasSum (fun k : ℕ => w ^ 7 / 15 * w ^ k) (w ^ 7 / 15 * (1 - w)⁻¹) :=
      (hasSum_geometric_of_lt_one h0 h1).mul_left _
    have h4 := hasSum_le (fun k => ?_) h2 h3
    · rw [div_eq_mul_inv (w ^ 7 / 15)]
      linarith
    · have e : w ^ (k + 6 + 1) = w ^ 7 * w ^ k := by ring
      rw [e, mul_div_right_comm]
      refine mul_le_mul_of_nonneg_right ?_ (by positivity)
      refine div_le_div_of_nonneg_left (by positivity) (by norm_num) ?_
      push_cast
      have : (0 : ℝ) ≤ k := Nat.cast_nonneg k
      linarith

theorem mu_step {x : ℝ} (hx : 0 < x) :
    rlo x - rlo (x + 1) ≤ mu x - mu (x + 1) ∧ mu x - mu (x + 1) ≤ rup x - rup (x + 1) := by
  obtain ⟨y, hy⟩ : ∃ y, y = 1 / (2 * x + 1) := ⟨_, rfl⟩
  have h0 : 0 < y := by rw [hy]; positivity
  have h1 : y < 1 := by
    rw [hy, div_lt_one (by positivity)]
    linarith
  have hxy : x = (1 - y) / (2 * y) := by
    rw [hy]
    field_simp
    ring
  have hb := mu_sub_bounds hx (w := y ^ 2) (by rw [hy])
  have hw0 : 0 < y ^ 2 := by positivity
  have hw1 : y ^ 2 < 1 := pow_lt_one₀ h0.le h1 two_ne_zero
  have hl := poly_lo hw0 hw1
  have hu := poly_up hw0 hw1
  rw [← rlo_sub h0 h1 hxy] at hl
  rw [← rup_sub h0 h1 hxy] at hu
  simp only [Finset.sum_range_succ, Finset.sum_range_zero] at hb
  norm_num at hb hl hu
  constructor
  · linarith [hb.1]
  · linarith [hb.2]

/-- a bound of the steps that vanishes in the limit is a bound -/
theorem bound_of_step {f g : ℝ → ℝ} (h : ∀ x, 0 < x → f x - f (x + 1) ≤ g x - g (x + 1)) {x : ℝ} (hx : 0 < x)
    (hf : Tendsto (fun n : ℕ => f (x + (n + 1 : ℕ))) atTop (𝓝 0))
    (hg : Tendsto (fun n : ℕ => g (x + (n + 1 : ℕ))) atTop (𝓝 0)) : f x ≤ g x := by
  have hn : ∀ n : ℕ, f x - f (x + n) ≤ g x - g (x + n) := by
    intro n
    induction n with
    | zero => simp
    | succ n ih =>
      have := h (x + n) (by positivity)
      push_cast
      rw [← add_assoc]
      linarith
  have h1 : Tendsto (fun n : ℕ => f x - f (x + (n + 1 : ℕ))) atTop (𝓝 (f x - 0)) := tendsto_const_nhds.sub hf
  have h2 : Tendsto (fun n : ℕ => g x - g (x + (n + 1 : ℕ))) atTop (𝓝 (g x - 0)) := tendsto_const_nhds.sub hg
  have := le_of_tendsto_of_tendsto' h1 h2 (fun n => hn (n + 1))
  simpa using this

/-- Stirling's formula with bounds of the remainder -/
theorem mu_bounds {x : ℝ} (hx : 0 < x) : rlo x ≤ mu x ∧ mu x ≤ rup x :=
  ⟨bound_of_step (fun _ h => (mu_step h).1) hx (tendsto_rlo x) (tendsto_mu hx),
    bound_of_step (fun _ h => (mu_step h).2) hx (tendsto_mu hx) (tendsto_rup x)⟩

end Pacal.Gamma
