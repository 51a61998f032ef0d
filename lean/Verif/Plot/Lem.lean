import Verif.Plot.Spec
import Verif.Summary.LemHump

/-! Lemmas about sample points. -/

namespace Pacal.Plot

theorem step_nonneg {s e : ℝ} (h : s < e) (n : ℕ) : 0 ≤ (e - s) / ((n : ℝ) - 1) ∨ n = 0 := by
  rcases Nat.eq_zero_or_pos n with h0 | h0
  · exact .inr h0
  · refine .inl (div_nonneg (by linarith) ?_)
    have : (1 : ℝ) ≤ n := by exact_mod_cast h0
    linarith

theorem linspace_sample {s e eps : ℝ} (h : s < e) (he : 0 ≤ eps) (n : ℕ) : IsSample eps s e n (linspace s e n) := by
  rcases Nat.lt_or_ge n 2 with hn | hn
  · interval_cases n
    · exact ⟨rfl, List.Pairwise.nil, by simp [linspace], by omega⟩
    · refine ⟨rfl, by simp [linspace, List.range_succ], ?_, by omega⟩
      simp [linspace, List.range_succ, h.le]
  · have hn' : (0 : ℝ) < (n : ℝ) - 1 := by
      have : (2 : ℝ) ≤ n := by exact_mod_cast hn
      linarith
    have hd : 0 < (e - s) / ((n : ℝ) - 1) := div_pos (by linarith) hn'
    refine ⟨by simp [linspace], ?_, fun x hx => ?_, fun _ => ⟨⟨s, ?_, by linarith⟩, ⟨e, ?_, by linarith⟩⟩⟩
    · unfold linspace
      rw [List.pairwise_map]
      refine List.pairwise_lt_range.imp ?_
      intro a b hab
      have : (a : ℝ) < b := by exact_mod_cast hab
      have := mul_lt_mul_of_pos_right this hd
      linarith
    · unfold linspace at hx
      obtain ⟨k, hk, rfl⟩ := List.mem_map.1 hx
      have hk1 : (k : ℝ) ≤ (n : ℝ) - 1 := by
        have : k + 1 ≤ n := List.mem_range.1 hk
        have : ((k + 1 : ℕ) : ℝ) ≤ n := by exact_mod_cast this
        push_cast at this
        linarith
      have h0 : (0 : ℝ) ≤ k := Nat.cast_nonneg k
      refine ⟨by nlinarith, ?_⟩
      have h1 := mul_le_mul_of_nonneg_right hk1 hd.le
      rw [mul_div_cancel₀ _ hn'.ne'] at h1
      linarith
    · exact List.mem_map.2 ⟨0, List.mem_range.2 (by omega), by simp⟩
    · refine List.mem_map.2 ⟨n - 1, List.mem_range.2 (by omega), ?_⟩
      rw [Nat.cast_sub (by omega), Nat.cast_one, mul_div_cancel₀ _ hn'.ne']
      ring

theorem logspace_sample {s e eps : ℝ} (hs : 0 < s) (h : s < e) (he : 0 ≤ eps) (n : ℕ) :
    IsSample eps s e n (logspace (Real.logb 10 s) (Real.logb 10 e) n) := by
  have hl : Real.logb 10 s < Real.logb 10 e := Real.logb_lt_logb (by norm_num) hs h
  obtain ⟨h1, h2, h3, h4⟩ := linspace_sample (eps := 0) hl le_rfl n
  have e1 : (10 : ℝ) ^ Real.logb 10 s = s := Real.rpow_logb (by norm_num) (by norm_num) hs
  have e2 : (10 : ℝ) ^ Real.logb 10 e = e := Real.rpow_logb (by norm_num) (by norm_num) (hs.trans h)
  have hm : ∀ {x y : ℝ}, x ≤ y → (10 : ℝ) ^ x ≤ (10 : ℝ) ^ y := fun h => Real.rpow_le_rpow_of_exponent_le (by norm_num) h
  refine ⟨by simp [logspace, h1], ?_, fun x hx => ?_, fun hn => ?_⟩
  · unfold logspace
    rw [List.pairwise_map]
    exact h2.imp fun hab => Real.rpow_lt_rpow_of_exponent_lt (by norm_num) hab
  · unfold logspace at hx
    obtain ⟨y, hy, rfl⟩ := List.mem_map.1 hx
    obtain ⟨a, b⟩ := h3 y hy
    exact ⟨e1 ▸ hm a, (hm b).trans e2.le⟩
  · obtain ⟨⟨y, hy, ha⟩, ⟨z, hz, hb⟩⟩ := h4 hn
    refine ⟨⟨_, List.mem_map.2 ⟨y, hy, rfl⟩, ?_⟩, ⟨_, List.mem_map.2 ⟨z, hz, rfl⟩, ?_⟩⟩
    · have := hm ha
      rw [add_zero, e1] at this
      linarith
    · have := hm hb
      rw [sub_zero, e2] at this
      linarith

theorem linspace_neg (s e : ℝ) (n : ℕ) : (linspace s e n).map (fun x => -x) = linspace (-s) (-e) n := by
  unfold linspace
  rw [List.map_map]
  refine List.map_congr_left fun k _ => ?_
  simp only [Function.comp]
  ring

theorem logspace_neg_sample {s e eps : ℝ} (hs : s < e) (h : e < 0) (he : 0 ≤ eps) (n : ℕ) :
    IsSample eps s e n ((logspace (Real.logb 10 |s|) (Real.logb 10 |e|) n).map fun x => -x) := by
  rw [abs_of_neg (hs.trans h), abs_of_neg h]
  have hl : Real.logb 10 (-e) < Real.logb 10 (-s) := Real.logb_lt_logb (by norm_num) (by linarith) (by linarith)
  obtain ⟨h1, h2, h3, h4⟩ := linspace_sample (eps := 0) (neg_lt_neg hl) le_rfl n
  have e1 : (10 : ℝ) ^ Real.logb 10 (-s) = -s := Real.rpow_logb (by norm_num) (by norm_num) (by linarith)
  have e2 : (10 : ℝ) ^ Real.logb 10 (-e) = -e := Real.rpow_logb (by norm_num) (by norm_num) (by linarith)
  have hm : ∀ {x y : ℝ}, x ≤ y → (10 : ℝ) ^ x ≤ (10 : ℝ) ^ y := fun h => Real.rpow_le_rpow_of_exponent_le (by norm_num) h
  have hmap : (logspace (Real.logb 10 (-s)) (Real.logb 10 (-e)) n).map (fun x => -x) =
      (linspace (-Real.logb 10 (-s)) (-Real.logb 10 (-e)) n).map fun y => -(10 : ℝ) ^ (-y) := by
    rw [← linspace_neg, logspace, List.map_map, List.map_map]
    refine List.map_congr_left fun y _ => ?_
    simp
  rw [hmap]
  refine ⟨by rw [List.length_map]; exact h1, ?_, fun x hx => ?_, fun hn => ?_⟩
  · rw [List.pairwise_map]
    exact h2.imp fun hab => neg_lt_neg (Real.rpow_lt_rpow_of_exponent_lt (by norm_num) (neg_lt_neg hab))
  · obtain ⟨y, hy, rfl⟩ := List.mem_map.1 hx
    obtain ⟨a, b⟩ := h3 y hy
    have ha := hm (neg_le_neg a)
    have hb := hm (neg_le_neg b)
    rw [neg_neg, e1] at ha
    rw [neg_neg, e2] at hb
    exact ⟨by linarith, by linarith⟩
  · obtain ⟨⟨y, hy, ha⟩, ⟨z, hz, hb⟩⟩ := h4 hn
    refine ⟨⟨_, List.mem_map.2 ⟨y, hy, rfl⟩, ?_⟩, ⟨_, List.mem_map.2 ⟨z, hz, rfl⟩, ?_⟩⟩
    · have := hm (neg_le_neg ha)
      rw [add_zero, neg_neg, e1] at this
      linarith
    · have := hm (neg_le_neg hb)
      rw [sub_zero, neg_neg, e2] at this
      linarith

theorem IsSample.widen {eps lo hi lo' hi' : ℝ} {n : ℕ} {xs : List ℝ} (h : IsSample 0 lo' hi' n xs) (h1 : lo ≤ lo')
    (h2 : lo' ≤ lo + eps) (h3 : hi' ≤ hi) (h4 : hi - eps ≤ hi') : IsSample eps lo hi n xs := by
  obtain ⟨a, b, c, d⟩ := h
  refine ⟨a, b, fun x hx => ⟨h1.trans (c x hx).1, (c x hx).2.trans h3⟩, fun hn => ?_⟩
  obtain ⟨⟨y, hy, ha⟩, ⟨z, hz, hb⟩⟩ := d hn
  exact ⟨⟨y, hy, by linarith⟩, ⟨z, hz, by linarith⟩⟩

theorem space_sample {eps lo hi : ℝ} (he : 0 < eps) (h : lo < hi) (hA : Apart eps lo hi) (n : ℕ) :
    IsSample eps lo hi n (space eps n lo hi) := by
  unfold space
  rw [if_neg (not_le.2 h)]
  dsimp only
  obtain ⟨lo', hlo'⟩ : ∃ lo', lo' = if lo = 0 then lo + eps else lo := ⟨_, rfl⟩
  obtain ⟨hi', hhi'⟩ : ∃ hi', hi' = if hi = 0 then hi - eps else hi := ⟨_, rfl⟩
  rw [← hlo', ← hhi']
  have k1 : lo ≤ lo' ∧ lo' ≤ lo + eps ∧ lo' ≠ 0 := by
    rw [hlo']; split_ifs with h0
    · exact ⟨by linarith, le_rfl, by rw [h0]; simpa using he.ne'⟩
    · exact ⟨le_rfl, by linarith, h0⟩
  have k2 : hi' ≤ hi ∧ hi - eps ≤ hi' ∧ hi' ≠ 0 := by
    rw [hhi']; split_ifs with h0
    · exact ⟨by linarith, le_rfl, by rw [h0]; simpa using he.ne'⟩
    · exact ⟨le_rfl, by linarith, h0⟩
  have k3 : lo' < hi' := by
    rw [hlo', hhi']
    by_cases a : lo = 0 <;> by_cases b : hi = 0
    · exact absurd h (by rw [a, b]; exact lt_irrefl _)
    · rw [if_pos a, if_neg b, a, zero_add]; exact hA.1 a
    · rw [if_neg a, if_pos b, b, zero_sub]; exact hA.2 b
    · rw [if_neg a, if_neg b]; exact h
  refine IsSample.widen ?_ k1.1 k1.2.1 k2.1 k2.2.1
  rcases lt_or_gt_of_ne k1.2.2 with hneg | hpos
  · have r1 : ¬ (lo' = 0 ∨ hi' / lo' > 1e2) := by
      rintro (h0 | h0)
      · exact k1.2.2 h0
      · rw [gt_iff_lt, lt_div_iff_of_neg hneg] at h0
        norm_num at h0
        linarith
    rw [if_neg r1]
    by_cases r2 : hi' = 0 ∨ lo' / hi' > 1e2
    · rw [if_pos r2]
      have hh : hi' < 0 := by
        rcases r2 with h0 | h0
        · exact absurd h0 k2.2.2
        · by_contra hc
          have : lo' / hi' ≤ 0 := div_nonpos_of_nonpos_of_nonneg hneg.le (not_lt.1 hc)
          norm_num at h0
          linarith
      exact logspace_neg_sample k3 hh le_rfl n
    · rw [if_neg r2]
      exact linspace_sample k3 le_rfl n
  · have hp := hpos.trans k3
    have r2 : ¬ (hi' = 0 ∨ lo' / hi' > 1e2) := by
      rintro (h0 | h0)
      · exact k2.2.2 h0
      · rw [gt_iff_lt, lt_div_iff₀ hp] at h0
        norm_num at h0
        linarith
    by_cases r1 : lo' = 0 ∨ hi' / lo' > 1e2
    · rw [if_pos r1, abs_of_pos hpos, abs_of_pos hp]
      exact logspace_sample hpos k3 le_rfl n
    · rw [if_neg r1, if_neg r2]
      exact linspace_sample k3 le_rfl n

end Pacal.Plot
