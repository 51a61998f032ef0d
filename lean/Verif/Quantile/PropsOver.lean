import Verif.Quantile.Props

/-! C08 in a tail so heavy that the quantile is beyond the largest number of the machine. -/

namespace Pacal.Quantile
open Roots

theorem pinfLoop_over {fin : ℝ → Bool} {f : ℝ → ℝ} {y M : ℝ} (hf : ∀ x, fin x = true → f x < y)
    (hM : ∀ x, M ≤ x → fin x = false) : ∀ (N : ℕ) (a b : ℝ), a + 1 ≤ b → M - b ≤ N → ∀ fuel, N ≤ fuel →
      ∃ a' b', pinfLoop fin f y fuel a b = .ok (a', b') ∧ fin b' = false
  | 0, a, b, _, h, fuel, _ => by
    have hb : fin b = false := hM b (by simpa using h)
    refine ⟨a, b, ?_, hb⟩
    unfold pinfLoop
    simp [hb]
  | N + 1, a, b, hab, h, fuel, hfu => by
    unfold pinfLoop
    by_cases hb : fin b = true
    · rw [if_pos ⟨hb, hf b hb⟩]
      obtain ⟨fuel, rfl⟩ : ∃ k, fuel = k + 1 := ⟨fuel - 1, by omega⟩
      refine pinfLoop_over hf hM N b _ (by linarith) ?_ fuel (by omega)
      push_cast at h
      linarith
    · exact ⟨a, b, by rw [if_neg fun hc => hb hc.1], by simpa using hb⟩

theorem minfLoop_over {fin : ℝ → Bool} {f : ℝ → ℝ} {y M : ℝ} (hf : ∀ x, fin x = true → y < f x)
    (hM : ∀ x, x ≤ M → fin x = false) : ∀ (N : ℕ) (a b : ℝ), a + 1 ≤ b → a - M ≤ N → ∀ fuel, N ≤ fuel →
      ∃ a' b', minfLoop fin f y fuel a b = .ok (a', b') ∧ fin a' = false
  | 0, a, b, _, h, fuel, _ => by
    have hb : fin a = false := hM a (by simpa using h)
    refine ⟨a, b, ?_, hb⟩
    unfold minfLoop
    simp [hb]
  | N + 1, a, b, hab, h, fuel, hfu => by
    unfold minfLoop
    by_cases hb : fin a = true
    · rw [if_pos ⟨hb, hf a hb⟩]
      obtain ⟨fuel, rfl⟩ : ∃ k, fuel = k + 1 := ⟨fuel - 1, by omega⟩
      refine minfLoop_over hf hM N _ a (by linarith) ?_ fuel (by omega)
      push_cast at h
      linarith
    · exact ⟨a, b, by rw [if_neg fun hc => hb hc.1], by simpa using hb⟩

/-- **C08** in a right tail: if the distribution function stays below the level at every number of the machine, the quantile is
`+inf`.  `fin` are the numbers that the machine holds; there are none from `M` on. -/
theorem C08_over_right (P : Finding) {f : ℝ → ℝ} {a y M : ℝ} (hy : y ≠ 1) (ha : f a ≤ y)
    (hf : ∀ x, P.fin x = true → f x < y) (hM : ∀ x, M ≤ x → P.fin x = false) :
    ∃ N, ∀ fuel, N ≤ fuel → solveSeg { P with fuel := fuel } y (.pinf a f) = .ok (some ⊤) := by
  obtain ⟨N, hN⟩ := exists_nat_ge (M - (a + max 1 (1 / 10 * |a|)))
  refine ⟨N, fun fuel hfu => ?_⟩
  obtain ⟨a', b', hr, hb⟩ := pinfLoop_over hf hM N a (a + max 1 (1 / 10 * |a|))
    (by have := le_max_left 1 (1 / 10 * |a|); linarith) hN fuel hfu
  simp only [solveSeg, hy, if_false, findinvPinf, if_true, one_mul, sub_nonpos, ha, not_true_eq_false, hr]
  simp [Bind.bind, Except.bind, Except.map, resFlt, hb]

/-- **C08** in a left tail: if the distribution function stays above the level at every number of the machine, the quantile is
`-inf` -/
theorem C08_over_left (P : Finding) {f : ℝ → ℝ} {b y M : ℝ} (hy : y ≠ 0) (hb : y ≤ f b)
    (hf : ∀ x, P.fin x = true → y < f x) (hM : ∀ x, x ≤ M → P.fin x = false) :
    ∃ N, ∀ fuel, N ≤ fuel → solveSeg { P with fuel := fuel } y (.minf b f) = .ok (some ⊥) := by
  obtain ⟨N, hN⟩ := exists_nat_ge ((b - max 1 (1 / 10 * |b|)) - M)
  refine ⟨N, fun fuel hfu => ?_⟩
  obtain ⟨a', b', hr, ha⟩ := minfLoop_over hf hM N (b - max 1 (1 / 10 * |b|)) b
    (by have := le_max_left 1 (1 / 10 * |b|); linarith) hN fuel hfu
  simp only [solveSeg, hy, if_false, findinvMinf, hb, not_true_eq_false, hr]
  simp [Bind.bind, Except.bind, Except.map, resFlt, ha]

/-- the distribution function `1 - 1 / (1 + x)` on a machine with the numbers below 100, at the level 0.999 -/
example : ∃ (fin : ℝ → Bool) (f : ℝ → ℝ), f 0 ≤ 999 / 1000 ∧ (∀ x, fin x = true → f x < 999 / 1000) ∧
    (∀ x, 100 ≤ x → fin x = false) := by
  refine ⟨fun x => decide (0 ≤ x ∧ x < 100), fun x => 1 - 1 / (1 + x), by norm_num, fun x hx => ?_, fun x hx => ?_⟩
  · have h := of_decide_eq_true hx
    have h1 : 1 / 101 < 1 / (1 + x) := one_div_lt_one_div_of_lt (by linarith [h.1]) (by linarith [h.2])
    simp only
    linarith
  · refine decide_eq_false fun h => ?_
    linarith [h.2]

end Pacal.Quantile
