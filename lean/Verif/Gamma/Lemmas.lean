import Verif.Gamma.Spec
import Mathlib.Analysis.SpecialFunctions.Gamma.Beta

/-!
The loops and the reflection of the log-gamma routine.
-/

namespace Pacal.Gamma

theorem not_pole_of_pos {x : ℝ} (h : 0 < x) : ¬Pole x := by
  rintro ⟨m, rfl⟩
  have : (0 : ℝ) ≤ m := Nat.cast_nonneg m
  linarith

theorem pole_add_one {u : ℝ} (h0 : u ≠ 0) : Pole (u + 1) ↔ Pole u := by
  constructor
  · rintro ⟨m, hm⟩
    refine ⟨m + 1, ?_⟩
    push_cast
    linarith
  · rintro ⟨m, hm⟩
    cases m with
    | zero => simp at hm; exact absurd hm h0
    | succ m =>
      refine ⟨m, ?_⟩
      push_cast at hm
      linarith

theorem down_spec (x : ℝ) : ∀ (n : ℕ) (z p u : ℝ), u = x + p → z ≠ 0 → u < 3 + n →
    ∃ z' p' u', down x (n + 1) z p u = some (z', p', u') ∧ u' = x + p' ∧ z' ≠ 0 ∧ u' < 3 ∧
      (u' = u ∨ 2 ≤ u' ∧ 3 ≤ u) ∧ z' * Real.Gamma u' = z * Real.Gamma u
  | n, z, p, u, hu, hz, hn => by
    rw [down]
    by_cases h3 : 3 ≤ u
    · rw [if_pos h3]
      have e : x + (p - 1) = u - 1 := by rw [hu]; ring
      cases n with
      | zero =>
        exfalso
        norm_num at hn
        linarith
      | succ n =>
        dsimp only
        rw [e]
        push_cast at hn
        obtain ⟨z', p', u', h1, h2, h4, h5, h6, h7⟩ := down_spec x n (z * (u - 1)) (p - 1) (u - 1) (by rw [hu]; ring)
          (mul_ne_zero hz (by linarith)) (by linarith)
        refine ⟨z', p', u', h1, h2, h4, h5, Or.inr ⟨?_, h3⟩, ?_⟩
        · rcases h6 with h6 | h6
          · rw [h6]; linarith
          · exact h6.1
        · rw [h7, mul_assoc]
          have := Real.Gamma_add_one (s := u - 1) (by linarith)
          rw [sub_add_cancel] at this
          rw [this]
    · rw [if_neg h3]
      exact ⟨z, p, u, rfl, hu, hz, not_le.1 h3, Or.inl rfl, rfl⟩

theorem up_spec (x : ℝ) : ∀ (n : ℕ) (z p u : ℝ), u = x + p → z ≠ 0 → u < 3 → 2 - n ≤ u →
    (Pole u → up x (n + 1) z p u = .pole) ∧
    (¬Pole u → ∃ z' p' u', up x (n + 1) z p u = .done z' p' u' ∧ u' = x + p' ∧ z' ≠ 0 ∧ 2 ≤ u' ∧ u' < 3 ∧
      z' * Real.Gamma u' = z * Real.Gamma u)
  | n, z, p, u, hu, hz, h3, hn => by
    rw [up]
    by_cases h2 : u < 2
    · rw [if_pos h2]
      by_cases h0 : u = 0
      · rw [if_pos h0]
        exact ⟨fun _ => rfl, fun h => absurd ⟨0, by simpa using h0⟩ h⟩
      · rw [if_neg h0]
        have e : x + (p + 1) = u + 1 := by rw [hu]; ring
        cases n with
        | zero =>
          exfalso
          norm_num at hn
          linarith
        | succ n =>
          dsimp only
          rw [e]
          push_cast at hn
          obtain ⟨h4, h5⟩ := up_spec x n (z / u) (p + 1) (u + 1) (by rw [hu]; ring) (div_ne_zero hz h0) (by linarith)
            (by linarith)
          rw [pole_add_one h0] at h4 h5
          refine ⟨h4, fun h => ?_⟩
          obtain ⟨z', p', u', a, b, c, d, e, f⟩ := h5 h
          refine ⟨z', p', u', a, b, c, d, e, ?_⟩
          rw [f, Real.Gamma_add_one h0]
          field_simp
    · rw [if_neg h2]
      exact ⟨fun h => absurd h (not_pole_of_pos (by linarith)), fun _ =>
        ⟨z, p, u, rfl, hu, hz, not_lt.1 h2, h3, rfl⟩⟩

/-- what the part for `-34 ≤ x < 13` computes -/
theorem small_spec (A : Approx) {fuel : ℕ} (hf : 40 ≤ fuel) {x : ℝ} (h1 : -34 ≤ x) (h2 : x < 13) :
    (Pole x → small A fuel x = some .pinf) ∧
    (¬Pole x → ∃ c u, 2 ≤ u ∧ u < 3 ∧ Real.log |Real.Gamma x| = c + Real.log (Real.Gamma u) ∧
      small A fuel x = some (.fin (if u = 2 then c else c + A.mid (u - 2)))) := by
  obtain ⟨n, rfl⟩ : ∃ n, fuel = n + 1 := ⟨fuel - 1, by omega⟩
  have hn : (39 : ℝ) ≤ n := by exact_mod_cast (by omega : 39 ≤ n)
  obtain ⟨z, p, u, a, b, c, d, e, f⟩ := down_spec x n 1 0 x (by ring) one_ne_zero (by linarith)
  have hpole : Pole u ↔ Pole x := by
    rcases e with e | e
    · rw [e]
    · exact iff_of_false (not_pole_of_pos (by linarith [e.1])) (not_pole_of_pos (by linarith [e.2]))
  have hlow : 2 - (n : ℝ) ≤ u := by
    rcases e with e | e
    · rw [e]; linarith
    · linarith [e.1]
  obtain ⟨g, h⟩ := up_spec x n z p u b c d hlow
  rw [hpole] at g h
  rw [small, a]
  dsimp only
  constructor
  · intro hp
    rw [g hp]
  · intro hp
    obtain ⟨z', p', u', a', b', c', d', e', f'⟩ := h hp
    rw [a']
    dsimp only
    refine ⟨Real.log |z'|, u', d', e', ?_, ?_⟩
    · have hu : 0 < Real.Gamma u' := Real.Gamma_pos_of_pos (by linarith)
      rw [f, one_mul] at f'
      rw [← f', abs_mul, abs_of_pos hu, Real.log_mul (abs_ne_zero.2 c') hu.ne']
    · have hz : (if z' < 0 then -z' else z') = |z'| := by
        split_ifs with hz
        · rw [abs_of_neg hz]
        · rw [abs_of_nonneg (not_lt.1 hz)]
      rw [hz]
      have e : x + (p' - 2) = u' - 2 := by rw [b']; ring
      rw [e]
      split_ifs <;> rfl

/-- the distance to the nearest integer has the same sine, up to sign -/
theorem abs_sin_pi {q p z : ℝ} (hp : p = (⌊q⌋ : ℝ)) (hne : p ≠ q) (hz : z = if 1 / 2 < q - p then p + 1 - q else q - p) :
    0 < z ∧ z < 1 ∧ |Real.sin (Real.pi * q)| = Real.sin (Real.pi * z) := by
  have h0 : p ≤ q := by rw [hp]; exact Int.floor_le q
  have h1 : q < p + 1 := by rw [hp]; exact Int.lt_floor_add_one q
  have h0' : p < q := lt_of_le_of_ne h0 hne
  have hz01 : 0 < z ∧ z < 1 := by
    rw [hz]
    split_ifs with h
    · constructor <;> linarith
    · constructor <;> linarith
  refine ⟨hz01.1, hz01.2, ?_⟩
  have hpos : 0 < Real.sin (Real.pi * z) := by
    refine Real.sin_pos_of_pos_of_lt_pi (mul_pos Real.pi_pos hz01.1) ?_
    nlinarith [Real.pi_pos, hz01.2]
  have key : Real.sin (Real.pi * q) = Real.sin (Real.pi * z) ∨ Real.sin (Real.pi * q) = -Real.sin (Real.pi * z) := by
    have hper : ∀ (k : ℤ) (y : ℝ), Real.sin (Real.pi * ((k : ℝ) + y)) = (-1) ^ k * Real.sin (Real.pi * y) := by
      intro k y
      rw [mul_add, add_comm, mul_comm Real.pi (k : ℝ), Real.sin_add_int_mul_pi]
    have hsgn : ∀ k : ℤ, ((-1 : ℝ) ^ k = 1) ∨ ((-1 : ℝ) ^ k = -1) := fun k => by
      rcases Int.even_or_odd k with hk | hk
      · exact Or.inl (hk.neg_one_zpow)
      · exact Or.inr (hk.neg_one_zpow)
    rw [hz]
    split_ifs with h
    · have e : q = ((⌊q⌋ + 1 : ℤ) : ℝ) + (-(p + 1 - q)) := by
        push_cast
        rw [← hp]
        ring
      have h2 := hper (⌊q⌋ + 1) (-(p + 1 - q))
      rw [← e, mul_neg, Real.sin_neg] at h2
      rcases hsgn (⌊q⌋ + 1) with hs | hs <;> rw [hs] at h2 <;> rw [h2]
      · right; ring
      · left; ring
    · have e : q = ((⌊q⌋ : ℤ) : ℝ) + (q - p) := by rw [← hp]; ring
      have h2 := hper ⌊q⌋ (q - p)
      rw [← e] at h2
      rcases hsgn ⌊q⌋ with hs | hs <;> rw [hs] at h2 <;> rw [h2]
      · left; ring
      · right; ring
  rcases key with key | key
  · rw [key, abs_of_pos hpos]
  · rw [key, abs_neg, abs_of_pos hpos]

/-- the reflection formula -/
theorem log_gamma_reflect {q : ℝ} (hq : 0 < q) (hs : Real.sin (Real.pi * q) ≠ 0) :
    Real.log |Real.Gamma (-q)| = Real.log Real.pi - Real.log (q * |Real.sin (Real.pi * q)|) - Real.log (Real.Gamma q) := by
  have h1 := Real.Gamma_mul_Gamma_one_sub (-q)
  rw [sub_neg_eq_add, add_comm 1 q, Real.Gamma_add_one hq.ne', mul_neg, Real.sin_neg] at h1
  have hG : 0 < Real.Gamma q := Real.Gamma_pos_of_pos hq
  have h2 : Real.Gamma (-q) = -(Real.pi / (q * Real.sin (Real.pi * q) * Real.Gamma q)) := by
    field_simp at h1 ⊢
    linarith
  have hpi := Real.pi_pos
  have ha : 0 < |Real.sin (Real.pi * q)| := abs_pos.2 hs
  rw [h2, abs_neg, abs_div, abs_mul, abs_mul, abs_of_pos hpi, abs_of_pos hq, abs_of_pos hG,
    Real.log_div hpi.ne' (by positivity), Real.log_mul (by positivity) hG.ne']
  ring

theorem pole_neg_iff {q : ℝ} (hq : 0 < q) : Pole (-q) ↔ ((⌊q⌋ : ℤ) : ℝ) = q := by
  constructor
  · rintro ⟨m, hm⟩
    have : q = (m : ℤ) := by
      push_cast
      linarith
    rw [this, Int.floor_intCast]
  · intro h
    refine ⟨⌊q⌋.toNat, ?_⟩
    have h0 : 0 ≤ ⌊q⌋ := Int.floor_nonneg.2 hq.le
    have : ((⌊q⌋.toNat : ℕ) : ℝ) = ((⌊q⌋ : ℤ) : ℝ) := by
      rw [← Int.cast_natCast, Int.toNat_of_nonneg h0]
    rw [this, h]

theorem reflect_pole (A : Approx) {q : ℝ} (hq : 0 < q) (hp : Pole (-q)) (w : Num) : reflect A q w = .pinf := by
  rw [reflect]
  simp only [if_pos ((pole_neg_iff hq).1 hp)]

theorem reflect_fin (A : Approx) {q : ℝ} (hq : 0 < q) (hp : ¬Pole (-q)) (w : ℝ) :
    ∃ c, Real.log |Real.Gamma (-q)| = Real.log Real.pi + c - Real.log (Real.Gamma q) ∧
      reflect A q (.fin w) = .fin (A.logpi + c - w) := by
  have hne : ((⌊q⌋ : ℤ) : ℝ) ≠ q := fun h => hp ((pole_neg_iff hq).2 h)
  obtain ⟨z, hz⟩ : ∃ z, z = if 1 / 2 < q - (⌊q⌋ : ℝ) then (⌊q⌋ : ℝ) + 1 - q else q - (⌊q⌋ : ℝ) := ⟨_, rfl⟩
  obtain ⟨h0, h1, h2⟩ := abs_sin_pi rfl hne hz
  have hpos : 0 < Real.sin (Real.pi * z) := by
    refine Real.sin_pos_of_pos_of_lt_pi (mul_pos Real.pi_pos h0) ?_
    nlinarith [Real.pi_pos]
  have hs : Real.sin (Real.pi * q) ≠ 0 := by
    rw [← abs_pos, h2]
    exact hpos
  refine ⟨-Real.log (q * Real.sin (Real.pi * z)), ?_, ?_⟩
  · rw [log_gamma_reflect hq hs, h2]
    ring
  · rw [reflect]
    simp only [if_neg hne, ← hz]
    rw [if_neg (mul_pos hq hpos).ne']
    congr 1

theorem logAbsGamma_pos {x : ℝ} (h : 0 < x) : logAbsGamma x = Real.log (Real.Gamma x) := by
  rw [logAbsGamma, abs_of_pos (Real.Gamma_pos_of_pos h)]

/-- the part without reflection -/
theorem direct_value {A : Approx} {ε : ℝ} (h0 : 0 ≤ ε) {fuel n : ℕ} (hf : 40 ≤ fuel) {x : ℝ}
    (hmid : ∀ u, 2 < u → u < 3 → |A.mid (u - 2) - logAbsGamma u| ≤ ε)
    (hbig : 13 ≤ x → |A.big x - logAbsGamma x| ≤ ε) (h1 : -34 ≤ x) (h2 : x ≤ maxlgm) (hp : ¬Pole x) :
    Returns (lgammaFin A fuel (n + 1) x) (logAbsGamma x) ε := by
  rw [lgammaFin, if_neg (not_lt.2 h1)]
  by_cases h13 : x < 13
  · rw [if_pos h13]
    obtain ⟨c, u, hu2, hu3, hc, hs⟩ := (small_spec A hf h1 h13).2 hp
    refine ⟨_, hs, ?_⟩
    rw [logAbsGamma, hc]
    split_ifs with hu
    · rw [hu, Real.Gamma_two, Real.log_one]
      simpa using h0
    · have := hmid u (lt_of_le_of_ne hu2 (Ne.symm hu)) hu3
      rw [logAbsGamma_pos (by linarith)] at this
      rw [add_sub_add_left_eq_sub]
      exact this
  · rw [if_neg h13, if_neg (not_lt.2 h2)]
    exact ⟨_, rfl, hbig (not_lt.1 h13)⟩

theorem direct_pole {A : Approx} {fuel n : ℕ} (hf : 40 ≤ fuel) {x : ℝ} (h1 : -34 ≤ x) (hp : Pole x) :
    lgammaFin A fuel (n + 1) x = some .pinf := by
  have h13 : x < 13 := by
    obtain ⟨m, rfl⟩ := hp
    have : (0 : ℝ) ≤ m := Nat.cast_nonneg m
    linarith
  rw [lgammaFin, if_neg (not_lt.2 h1), if_pos h13]
  exact (small_spec A hf h1 h13).1 hp

/-- the value, with the error of the large-argument approximation at `|x|` only -/
theorem value_at {A : Approx} {ε δ : ℝ} (h0 : 0 ≤ ε) {fuel : ℕ} (hf : 40 ≤ fuel) {x : ℝ}
    (hmid : ∀ u, 2 < u → u < 3 → |A.mid (u - 2) - logAbsGamma u| ≤ ε)
    (hbig : 13 ≤ |x| → |A.big (|x|) - logAbsGamma (|x|)| ≤ ε) (hpi : |A.logpi - Real.log Real.pi| ≤ δ)
    (hx : |x| ≤ maxlgm) (hp : ¬Pole x) :
    Returns (lgamma A fuel (.fin x)) (logAbsGamma x) (ε + δ) := by
  have hδ : 0 ≤ δ := (abs_nonneg _).trans hpi
  obtain ⟨n, rfl⟩ : ∃ n, fuel = n + 2 := ⟨fuel - 2, by omega⟩
  rw [lgamma]
  by_cases h34 : x < -34
  · have hq : 0 < -x := by linarith
    rw [abs_of_neg (by linarith : x < 0)] at hbig hx
    rw [show n + 2 = (n + 1) + 1 from rfl, lgammaFin, if_pos h34]
    dsimp only
    obtain ⟨w, hw, hwe⟩ := direct_value (n := n) h0 hf hmid hbig (by linarith) hx (not_pole_of_pos hq)
    rw [show n + 1 + 1 = n + 2 from rfl, hw]
    rw [← neg_neg x] at hp
    obtain ⟨c, hc, hr⟩ := reflect_fin A hq hp w
    rw [neg_neg] at hc
    refine ⟨_, congrArg some hr, ?_⟩
    rw [logAbsGamma, hc]
    rw [logAbsGamma_pos hq] at hwe
    rw [abs_le] at hwe hpi ⊢
    constructor <;> linarith [hwe.1, hwe.2, hpi.1, hpi.2]
  · obtain ⟨v, hv, hve⟩ := direct_value (A := A) (n := n + 1) h0 hf hmid
      (fun h => by rw [abs_of_pos (by linarith : 0 < x)] at hbig; exact hbig h) (not_lt.1 h34)
      ((le_abs_self x).trans hx) hp
    exact ⟨v, hv, hve.trans (by linarith)⟩

theorem pole_at (A : Approx) {fuel : ℕ} (hf : 40 ≤ fuel) {x : ℝ} (hx : |x| ≤ maxlgm) (hp : Pole x) :
    lgamma A fuel (.fin x) = some .pinf := by
  obtain ⟨n, rfl⟩ : ∃ n, fuel = n + 2 := ⟨fuel - 2, by omega⟩
  rw [lgamma]
  by_cases h34 : x < -34
  · have hq : 0 < -x := by linarith
    rw [abs_of_neg (by linarith : x < 0)] at hx
    rw [show n + 2 = (n + 1) + 1 from rfl, lgammaFin, if_pos h34]
    dsimp only
    rw [lgammaFin, if_neg (by linarith), if_neg (by linarith), if_neg (not_lt.2 hx)]
    rw [← neg_neg x] at hp
    simp only [Option.map_some, reflect_pole A hq hp]
  · exact direct_pole hf (not_lt.1 h34) hp

theorem polevl_foldl (x : ℝ) (coef : List ℝ) (N : ℕ) (h : N < coef.length) :
    polevl x coef N = some (∑ i ∈ Finset.range (N + 1), coef.getD i 0 * x ^ (N - i)) := by
  induction N with
  | zero =>
    rw [polevl]
    simp [List.getElem?_eq_getElem h]
  | succ N ih =>
    have h1 := ih (by omega)
    rw [polevl] at h1 ⊢
    rw [List.range_succ, List.foldl_append, h1]
    simp only [List.foldl_cons, List.foldl_nil, Option.bind_some]
    rw [List.getElem?_eq_getElem h, Option.map_some, Finset.sum_range_succ _ (N + 1), Finset.sum_mul]
    congr 2
    · refine Finset.sum_congr rfl fun i hi => ?_
      have : i ≤ N := by simpa using Finset.mem_range_succ_iff.1 hi
      rw [mul_assoc, ← pow_succ]
      congr 2
      omega
    · simp [List.getD, List.getElem?_eq_getElem h]

end Pacal.Gamma
