import Verif.Summary.LemMax

/-! Lemmas for `Verif.Summary.PropsMode`: the end of the searched part of a tail, and pieces with one hump. -/

namespace Pacal.Summary
open Filter Topology Set

theorem rightLoop_ok (f : ℝ → ℝ) (a thr : ℝ) : ∀ (n : ℕ) (x : ℝ), a < x → 1e20 + |a| < (x - a) * 2 ^ n →
    ∃ R, x ≤ R ∧ ∀ fuel, n + 1 ≤ fuel → rightLoop f a thr fuel x = some R
  | n, x, hx, hn => by
    have hd : |x - a| = x - a := abs_of_pos (sub_pos.2 hx)
    by_cases hc : f x ≤ thr ∨ |f x - f (x + 1.2 * |x - a|)| ≤ thr
    · refine ⟨x, le_rfl, fun fuel hf => ?_⟩
      obtain ⟨k, rfl⟩ := Nat.exists_eq_add_of_le' hf
      rw [show k + (n + 1) = (k + n) + 1 by omega, rightLoop, if_pos hc]
    by_cases hb : |x + 1.2 * (|x - a|)| > 1e20
    · refine ⟨x + 1.2 * |x - a|, by rw [hd]; linarith, fun fuel hf => ?_⟩
      obtain ⟨k, rfl⟩ := Nat.exists_eq_add_of_le' hf
      rw [show k + (n + 1) = (k + n) + 1 by omega, rightLoop, if_neg hc]
      exact if_pos hb
    · match n, hn with
      | 0, hn =>
        exfalso
        apply hb
        rw [hd]
        have h1 := le_abs_self (x + 1.2 * (x - a))
        have h2 := neg_abs_le a
        rw [pow_zero, mul_one] at hn
        norm_num at hn ⊢
        linarith
      | n + 1, hn =>
        obtain ⟨R, hR, h⟩ := rightLoop_ok f a thr n (x + 1.2 * |x - a|) (by rw [hd]; linarith) (by
          rw [hd]
          refine hn.trans_le ?_
          rw [pow_succ]
          have : (0 : ℝ) < 2 ^ n := by positivity
          nlinarith [mul_pos (sub_pos.2 hx) this])
        refine ⟨R, le_trans (by rw [hd]; linarith) hR, fun fuel hf => ?_⟩
        obtain ⟨k, rfl⟩ := Nat.exists_eq_add_of_le' hf
        rw [show k + (n + 1 + 1) = (k + (n + 1)) + 1 by omega, rightLoop, if_neg hc]
        refine (if_neg hb).trans (h _ (by omega))

theorem leftLoop_ok (f : ℝ → ℝ) (b thr : ℝ) : ∀ (n : ℕ) (x : ℝ), x < b → 1e20 + |b| < (b - x) * 2 ^ n →
    ∃ L, L ≤ x ∧ ∀ fuel, n + 1 ≤ fuel → leftLoop f b thr fuel x = some L
  | n, x, hx, hn => by
    have hd : |x - b| = b - x := by rw [abs_sub_comm]; exact abs_of_pos (sub_pos.2 hx)
    by_cases hc : f x ≤ thr ∨ |f x - f (x - 1.2 * |x - b|)| ≤ thr
    · refine ⟨x, le_rfl, fun fuel hf => ?_⟩
      obtain ⟨k, rfl⟩ := Nat.exists_eq_add_of_le' hf
      rw [show k + (n + 1) = (k + n) + 1 by omega, leftLoop, if_pos hc]
    by_cases hb : |x - 1.2 * (|x - b|)| > 1e20
    · refine ⟨x - 1.2 * |x - b|, by rw [hd]; linarith, fun fuel hf => ?_⟩
      obtain ⟨k, rfl⟩ := Nat.exists_eq_add_of_le' hf
      rw [show k + (n + 1) = (k + n) + 1 by omega, leftLoop, if_neg hc]
      exact if_pos hb
    · match n, hn with
      | 0, hn =>
        exfalso
        apply hb
        rw [hd]
        have h1 := neg_abs_le (x - 1.2 * (b - x))
        have h2 := le_abs_self b
        rw [pow_zero, mul_one] at hn
        norm_num at hn h1 ⊢
        linarith
      | n + 1, hn =>
        obtain ⟨R, hR, h⟩ := leftLoop_ok f b thr n (x - 1.2 * |x - b|) (by rw [hd]; linarith) (by
          rw [hd]
          refine hn.trans_le ?_
          rw [pow_succ]
          have : (0 : ℝ) < 2 ^ n := by positivity
          nlinarith [mul_pos (sub_pos.2 hx) this])
        refine ⟨R, hR.trans (by rw [hd]; linarith), fun fuel hf => ?_⟩
        obtain ⟨k, rfl⟩ := Nat.exists_eq_add_of_le' hf
        rw [show k + (n + 1 + 1) = (k + (n + 1)) + 1 by omega, leftLoop, if_neg hc]
        refine (if_neg hb).trans (h _ (by omega))

theorem findRightpoint_ok (ym : ℝ) (f : ℝ → ℝ) (a : ℝ) : ∃ R, a + 1 ≤ R ∧ ∃ N, ∀ fuel, N ≤ fuel → findRightpoint ym fuel f a = some R := by
  obtain ⟨n, hn⟩ := pow_unbounded_of_one_lt (1e20 + |a|) (one_lt_two : (1 : ℝ) < 2)
  obtain ⟨R, h1, h2⟩ := rightLoop_ok f a (f (a + 1) * ym) n (a + 1) (by linarith) (by simpa using hn)
  exact ⟨R, h1, n + 1, h2⟩

theorem findLeftpoint_ok (ym : ℝ) (f : ℝ → ℝ) (b : ℝ) : ∃ L, L ≤ b - 1 ∧ ∃ N, ∀ fuel, N ≤ fuel → findLeftpoint ym fuel f b = some L := by
  obtain ⟨n, hn⟩ := pow_unbounded_of_one_lt (1e20 + |b|) (one_lt_two : (1 : ℝ) < 2)
  obtain ⟨L, h1, h2⟩ := leftLoop_ok f b (f (b - 1) * ym) n (b - 1) (by linarith) (by simpa using hn)
  exact ⟨L, h1, n + 1, h2⟩

/-- a hump becomes a valley when the function is negated -/
theorem valley_of {f g : ℝ → ℝ} {a b c k : ℝ} (hc : c ∈ Icc a b) (h1 : StrictMonoOn f (Icc a c)) (h2 : StrictAntiOn f (Icc c b))
    (hg : ∀ x ∈ Icc a b, g x = -f x + k) : Valley g a b := by
  refine .inl ⟨c, hc, fun x hx y hy hxy => ?_, fun x hx y hy hxy => ?_⟩
  · rw [hg x ⟨hx.1, hx.2.trans hc.2⟩, hg y ⟨hy.1, hy.2.trans hc.2⟩]
    linarith [h1 hx hy hxy]
  · rw [hg x ⟨hc.1.trans hx.1, hx.2⟩, hg y ⟨hc.1.trans hy.1, hy.2⟩]
    linarith [h2 hx hy hxy]

theorem valley_of_hump {f g : ℝ → ℝ} {lo a b k : ℝ} (hab : a ≤ b) (h : Hump f lo a b) (hg : ∀ x ∈ Icc a b, g x = -f x + k) :
    Valley g a b := by
  rcases h with ⟨c, hc, -, h1, h2⟩ | h
  · exact valley_of hc h1 h2 hg
  · refine .inr fun y hy => ?_
    rw [hg y hy, hg a ⟨le_rfl, hab⟩, h y hy]

theorem searched_of {M : Minimizer} (hM : GoodSearch M) (ym : ℝ) {s : Seg ℝ} (h : OneHump s) :
    ∃ N, ∀ fuel, N ≤ fuel → Searched ⟨M, ym, fuel⟩ s := by
  match s, h with
  | .fin .left a b f, h =>
    exact ⟨0, fun _ _ => hM _ _ _ h.1 (valley_of_hump h.1 h.2 (k := 1e-14) fun x hx => by rw [call_fin hx])⟩
  | .fin .none a b f, h =>
    exact ⟨0, fun _ _ => hM _ _ _ h.1 (valley_of_hump h.1 h.2 (k := 0) fun x hx => by rw [call_fin hx, add_zero])⟩
  | .fin .right a b f, h =>
    obtain ⟨hab, h⟩ := h
    have he : a ≤ a + 1e-14 := by norm_num
    have hcall : ∀ x ∈ Icc (a + 1e-14) b, -(Seg.fin .right a b f).call x = -f x + 0 := fun x hx => by
      rw [call_fin ⟨he.trans hx.1, hx.2⟩, add_zero]
    rcases h with ⟨c, hc, hlo, h1, h2⟩ | h
    · refine ⟨0, fun _ _ => ⟨hM _ _ _ hab (valley_of ⟨hlo, hc.2⟩ (h1.mono (Icc_subset_Icc_left he)) h2 hcall), fun y hy =>
        ⟨a + 1e-14, ⟨le_rfl, hab⟩, h1.monotoneOn ⟨hy.1, hy.2.trans hlo⟩ ⟨he, hlo⟩ hy.2⟩⟩⟩
    · refine ⟨0, fun _ _ => ⟨hM _ _ _ hab (.inr fun y hy => ?_), fun y hy => ⟨a + 1e-14, ⟨le_rfl, hab⟩, ?_⟩⟩⟩
      · show -(Seg.fin .right a b f).call y = -(Seg.fin .right a b f).call _
        rw [hcall y hy, hcall _ ⟨le_rfl, hab⟩, h y ⟨he.trans hy.1, hy.2⟩, h _ ⟨he, hab⟩]
      · rw [h y ⟨hy.1, hy.2.trans hab⟩, h _ ⟨he, hab⟩]
  | .const a b c, h =>
    refine ⟨0, fun _ _ => hM _ _ _ h (.inr fun y hy => ?_)⟩
    show -(Seg.const a b c).call y = -(Seg.const a b c).call a
    rw [call_const hy, call_const ⟨le_rfl, h⟩]
  | .dirac _ _, _ => exact ⟨0, fun _ _ => trivial⟩
  | .minf b f, h =>
    obtain ⟨⟨c, hc, h1, h2⟩, hv⟩ := h
    obtain ⟨L, hL, N, hN⟩ := findLeftpoint_ok ym f b
    refine ⟨N, fun fuel hf => ⟨hv, L, hN fuel hf, ?_, fun y hy => ⟨L, ⟨le_rfl, by linarith⟩, ?_⟩⟩⟩
    · refine hM _ _ _ (by linarith) (valley_of (c := c) ⟨hL.trans hc.1, hc.2⟩ (h1.mono fun x hx => hx.2) h2 (k := 0) fun x hx => ?_)
      rw [call_minf hx.2, add_zero]
    · exact h1.monotoneOn (mem_Iic.2 (hy.trans (hL.trans hc.1))) (mem_Iic.2 (hL.trans hc.1)) hy
  | .pinf a f, h =>
    obtain ⟨⟨c, hc, h1, h2⟩, hv⟩ := h
    obtain ⟨R, hR, N, hN⟩ := findRightpoint_ok ym f a
    refine ⟨N, fun fuel hf => ⟨hv, R, hN fuel hf, ?_, fun y hy => ⟨R, ⟨by linarith, le_rfl⟩, ?_⟩⟩⟩
    · refine hM _ _ _ (by linarith) (valley_of (c := c) ⟨hc.1, hc.2.trans hR⟩ h1 (h2.mono fun x hx => hx.1) (k := 0) fun x hx => ?_)
      rw [call_pinf hx.1, add_zero]
    · exact h2.antitoneOn (mem_Ici.2 (hc.2.trans hR)) (mem_Ici.2 ((hc.2.trans hR).trans hy)) hy

theorem searched_all {M : Minimizer} (hM : GoodSearch M) (ym : ℝ) : ∀ (l : PF ℝ), (∀ s ∈ l, OneHump s) →
    ∃ N, ∀ fuel, N ≤ fuel → ∀ s ∈ l, Searched ⟨M, ym, fuel⟩ s
  | [], _ => ⟨0, by simp⟩
  | s :: l, h => by
    obtain ⟨N₁, h1⟩ := searched_of hM ym (h s (by simp))
    obtain ⟨N₂, h2⟩ := searched_all hM ym l fun t ht => h t (List.mem_cons_of_mem _ ht)
    refine ⟨max N₁ N₂, fun fuel hf t ht => ?_⟩
    rcases List.mem_cons.1 ht with rfl | ht
    · exact h1 fuel ((le_max_left _ _).trans hf)
    · exact h2 fuel ((le_max_right _ _).trans hf) t ht

open Classical in
/-- a minimiser that meets `GoodSearch` -/
noncomputable def bestM : Minimizer := fun g a b => if h : ∃ x ∈ Icc a b, ∀ y ∈ Icc a b, g x ≤ g y then h.choose else a

theorem bestM_good : GoodSearch bestM := by
  intro g a b hab hv
  have h : ∃ x ∈ Icc a b, ∀ y ∈ Icc a b, g x ≤ g y := by
    rcases hv with ⟨c, hc, h1, h2⟩ | h
    · refine ⟨c, hc, fun y hy => ?_⟩
      rcases le_total y c with hyc | hyc
      · exact h1.antitoneOn ⟨hy.1, hyc⟩ ⟨hc.1, le_rfl⟩ hyc
      · exact h2.monotoneOn ⟨le_rfl, hc.2⟩ ⟨hyc, hy.2⟩ hyc
    · exact ⟨a, ⟨le_rfl, hab⟩, fun y hy => (h y hy).ge⟩
  rw [Finds, bestM, dif_pos h]
  exact h.choose_spec

end Pacal.Summary
