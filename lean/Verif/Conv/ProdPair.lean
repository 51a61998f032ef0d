import Verif.Conv.ProdModel
import Verif.Conv.Mellin
import Verif.Conv.SumPair
import Verif.Conv.SumLemmas
import Mathlib.Topology.Instances.EReal.Lemmas

/-! One pair of pieces in a product: which pairs are found, and what they contribute. -/

namespace Pacal
namespace Conv
open MeasureTheory Set Transform

/-! ### corners -/

theorem fmul_comm (a b : EReal) : fmul a b = fmul b a := by
  unfold fmul
  rw [mul_comm]
  congr 1
  exact propext or_comm

theorem fmul_fin (a : EReal) (b : ℝ) (h : b ≠ 0 ∨ ∃ r : ℝ, a = r) : fmul a b = some (a * b) := by
  unfold fmul
  rw [if_neg]
  rintro (⟨-, h1 | h1⟩ | ⟨h1, h2⟩)
  · exact EReal.coe_ne_top _ h1
  · exact EReal.coe_ne_bot _ h1
  · rcases h with h | ⟨r, rfl⟩
    · exact h (EReal.coe_eq_zero.1 h1)
    · rcases h2 with h2 | h2
      · exact EReal.coe_ne_top _ h2
      · exact EReal.coe_ne_bot _ h2

theorem fmul_ne {a b : EReal} (ha : a ≠ 0) (hb : b ≠ 0) : fmul a b = some (a * b) := by
  unfold fmul
  rw [if_neg]
  rintro (⟨h, -⟩ | ⟨h, -⟩)
  · exact ha h
  · exact hb h

theorem fmul_neg (a b : EReal) : fmul a (-b) = (fmul a b).map fun v => -v := by
  unfold fmul
  simp only [EReal.neg_eq_top_iff, EReal.neg_eq_bot_iff, EReal.neg_eq_zero_iff, mul_neg, or_comm (a := b = ⊥)]
  split_ifs <;> rfl

/-- a product of ends that is above the product of two points -/
theorem corner_gt {a b c d : EReal} {s t : ℝ} (h1 : a < s) (h2 : (s : EReal) < b) (h3 : c ≤ t) (h4 : (t : EReal) ≤ d)
    (hf : (∃ r : ℝ, c = r) ∨ ∃ r : ℝ, d = r) (h0 : s * t ≠ 0) :
    ∃ e ∈ [a, b], ∃ f ∈ [c, d], ∃ v, fmul e f = some v ∧ ((s * t : ℝ) : EReal) < v := by
  have ht0 : t ≠ 0 := fun h => h0 (by rw [h, mul_zero])
  have zero : ∀ e, e = 0 → e ∈ [a, b] → s * t < 0 →
      ∃ e ∈ [a, b], ∃ f ∈ [c, d], ∃ v, fmul e f = some v ∧ ((s * t : ℝ) : EReal) < v := by
    rintro e rfl he hst
    rcases hf with ⟨r, rfl⟩ | ⟨r, rfl⟩
    · refine ⟨0, he, _, by simp, _, fmul_fin 0 r (.inr ⟨0, rfl⟩), ?_⟩
      rw [zero_mul]; exact_mod_cast hst
    · refine ⟨0, he, _, List.mem_cons_of_mem _ (List.mem_singleton.2 rfl), _, fmul_fin 0 r (.inr ⟨0, rfl⟩), ?_⟩
      rw [zero_mul]; exact_mod_cast hst
  -- the general step: a strict move of `s` and a weak move of `t`
  rcases lt_or_gt_of_ne ht0 with ht | ht
  · -- t < 0: take a
    rcases lt_trichotomy a 0 with ha | ha | ha
    · have hc : c < 0 := lt_of_le_of_lt h3 (by exact_mod_cast ht)
      refine ⟨a, by simp, c, by simp, _, fmul_ne ha.ne hc.ne, ?_⟩
      induction a using EReal.rec with
      | top => simp at ha
      | bot => rw [EReal.bot_mul_of_neg hc]; exact EReal.coe_lt_top _
      | coe a =>
        induction c using EReal.rec with
        | top => simp at hc
        | bot => rw [EReal.coe_mul_bot_of_neg (by exact_mod_cast ha)]; exact EReal.coe_lt_top _
        | coe c =>
          have : a < 0 := by exact_mod_cast ha
          have : a < s := by exact_mod_cast h1
          have : c ≤ t := by exact_mod_cast h3
          have : s * t < a * c := by nlinarith
          exact_mod_cast this
    · refine zero a ha (by simp) ?_
      have : 0 < s := by rw [ha] at h1; exact_mod_cast h1
      exact mul_neg_of_pos_of_neg this ht
    · induction a using EReal.rec with
      | top => simp at h1
      | bot => simp at ha
      | coe a =>
        have ha' : 0 < a := by exact_mod_cast ha
        have : a < s := by exact_mod_cast h1
        refine ⟨a, by simp, d, by simp, _, by rw [fmul_comm]; exact fmul_fin d a (.inl ha'.ne'), ?_⟩
        induction d using EReal.rec with
        | top => rw [EReal.top_mul_of_pos ha]; exact EReal.coe_lt_top _
        | bot => simp at h4
        | coe d =>
          have : t ≤ d := by exact_mod_cast h4
          have : s * t < d * a := by nlinarith
          exact_mod_cast this
  · rcases lt_trichotomy b 0 with hb | hb | hb
    · induction b using EReal.rec with
      | top => simp at hb
      | bot => simp at h2
      | coe b =>
        have hb' : b < 0 := by exact_mod_cast hb
        have : s < b := by exact_mod_cast h2
        refine ⟨b, by simp, c, by simp, _, by rw [fmul_comm]; exact fmul_fin c b (.inl hb'.ne), ?_⟩
        induction c using EReal.rec with
        | top => simp at h3
        | bot => rw [EReal.bot_mul_of_neg hb]; exact EReal.coe_lt_top _
        | coe c =>
          have : c ≤ t := by exact_mod_cast h3
          have : s * t < c * b := by nlinarith
          exact_mod_cast this
    · refine zero b hb (by simp) ?_
      have : s < 0 := by rw [hb] at h2; exact_mod_cast h2
      exact mul_neg_of_neg_of_pos this ht
    · have hd : 0 < d := lt_of_lt_of_le (by exact_mod_cast ht) h4
      refine ⟨b, by simp, d, by simp, _, fmul_ne hb.ne' hd.ne', ?_⟩
      induction b using EReal.rec with
      | top => rw [EReal.top_mul_of_pos hd]; exact EReal.coe_lt_top _
      | bot => simp at hb
      | coe b =>
        induction d using EReal.rec with
        | top => rw [EReal.coe_mul_top_of_pos (by exact_mod_cast hb)]; exact EReal.coe_lt_top _
        | bot => simp at hd
        | coe d =>
          have : 0 < b := by exact_mod_cast hb
          have : s < b := by exact_mod_cast h2
          have : t ≤ d := by exact_mod_cast h4
          have : s * t < b * d := by nlinarith
          exact_mod_cast this

theorem corner_lt {a b c d : EReal} {s t : ℝ} (h1 : a < s) (h2 : (s : EReal) < b) (h3 : c ≤ t) (h4 : (t : EReal) ≤ d)
    (hf : (∃ r : ℝ, c = r) ∨ ∃ r : ℝ, d = r) (h0 : s * t ≠ 0) :
    ∃ e ∈ [a, b], ∃ f ∈ [c, d], ∃ v, fmul e f = some v ∧ v < ((s * t : ℝ) : EReal) := by
  obtain ⟨e, he, f, hf, v, hv, h⟩ := corner_gt (c := -d) (d := -c) (t := -t) h1 h2
    (by rw [EReal.coe_neg]; exact EReal.neg_le_neg_iff.2 h4) (by rw [EReal.coe_neg]; exact EReal.neg_le_neg_iff.2 h3)
    (hf.symm.imp (fun ⟨r, h⟩ => ⟨-r, by rw [h]; rfl⟩) (fun ⟨r, h⟩ => ⟨-r, by rw [h]; rfl⟩)) (by simpa using h0)
  refine ⟨e, he, -f, ?_, -v, by rw [fmul_neg, hv]; rfl, ?_⟩
  · simp only [List.mem_cons, List.not_mem_nil, or_false] at hf ⊢
    rcases hf with rfl | rfl <;> simp
  · rw [mul_neg, EReal.coe_neg, ← EReal.neg_lt_neg_iff, neg_neg] at h
    exact h

/-- some corner is below and some corner is above `x` -/
def TestMul (x : ℝ) (si sj : Seg ℝ) : Prop := (∃ c ∈ corners si sj, c < x) ∧ ∃ c ∈ corners si sj, (x : EReal) < c

theorem mem_corners {si sj : Seg ℝ} {v : EReal} :
    v ∈ corners si sj ↔ ∃ e ∈ [lo si, hi si], ∃ f ∈ [lo sj, hi sj], fmul e f = some v := by
  simp only [corners, List.mem_filterMap, List.mem_cons, List.not_mem_nil, or_false]
  constructor
  · rintro ⟨p, rfl | rfl | rfl | rfl, h⟩
    · exact ⟨_, .inl rfl, _, .inl rfl, h⟩
    · exact ⟨_, .inr rfl, _, .inr rfl, h⟩
    · exact ⟨_, .inl rfl, _, .inr rfl, h⟩
    · exact ⟨_, .inr rfl, _, .inl rfl, h⟩
  · rintro ⟨e, rfl | rfl, f, rfl | rfl, h⟩
    · exact ⟨_, .inl rfl, h⟩
    · exact ⟨_, .inr (.inr (.inl rfl)), h⟩
    · exact ⟨_, .inr (.inr (.inr rfl)), h⟩
    · exact ⟨_, .inr (.inl rfl), h⟩

theorem corners_comm {si sj : Seg ℝ} {v : EReal} : v ∈ corners si sj ↔ v ∈ corners sj si := by
  rw [mem_corners, mem_corners]
  constructor <;> rintro ⟨e, he, f, hf, h⟩ <;> exact ⟨f, hf, e, he, by rw [fmul_comm]; exact h⟩

theorem testMul_comm {x : ℝ} {si sj : Seg ℝ} : TestMul x si sj ↔ TestMul x sj si := by
  simp only [TestMul, corners_comm]

theorem fin_end (s : Seg ℝ) : (∃ r : ℝ, lo s = r) ∨ ∃ r : ℝ, hi s = r := by
  cases s <;> first | exact .inl ⟨_, rfl⟩ | exact .inr ⟨_, rfl⟩

theorem test_of {si sj : Seg ℝ} {s t : ℝ} (h1 : lo si < s) (h2 : (s : EReal) < hi si) (h3 : lo sj ≤ t) (h4 : (t : EReal) ≤ hi sj)
    (h0 : s * t ≠ 0) : TestMul (s * t) si sj := by
  obtain ⟨e, he, f, hf, v, hv, h⟩ := corner_lt h1 h2 h3 h4 (fin_end sj) h0
  obtain ⟨e', he', f', hf', v', hv', h'⟩ := corner_gt h1 h2 h3 h4 (fin_end sj) h0
  exact ⟨⟨v, mem_corners.2 ⟨e, he, f, hf, hv⟩, h⟩, ⟨v', mem_corners.2 ⟨e', he', f', hf', hv'⟩, h'⟩⟩

/-! ### pieces on one side of 0 -/

/-- the piece does not contain -1, 0 or 1 in its interior -/
def CutSeg (s : Seg ℝ) : Prop := ∀ p ∈ prodPoints, ¬ (lo s < (p : EReal) ∧ (p : EReal) < hi s)

/-- right or left of 0 -/
theorem CutSeg.side {s : Seg ℝ} (h : CutSeg s) : 0 ≤ lo s ∨ hi s ≤ 0 := by
  have := h 0 (by simp [prodPoints])
  by_contra hc
  push Not at hc
  exact this hc

theorem sgn_pos {s : Seg ℝ} (hs : s.isDirac = false) (hw : s.WF) (h : 0 ≤ lo s) : 0 < lo s + hi s := by
  have := lo_lt_hi hs hw
  exact lt_of_lt_of_le (lt_of_le_of_lt h this) (le_add_of_nonneg_left h)

theorem sgn_neg {s : Seg ℝ} (hs : s.isDirac = false) (hw : s.WF) (h : hi s ≤ 0) : lo s + hi s < 0 := by
  have := lo_lt_hi hs hw
  exact lt_of_le_of_lt (add_le_of_nonpos_right h) (lt_of_lt_of_le this h)

theorem fdivAbs_lt {y t : ℝ} (hy : 0 < y) (ht : 0 < t) {e : EReal} (he : 0 ≤ e) : ((y / t : ℝ) : EReal) < e ↔ fdivAbs y e < t := by
  unfold fdivAbs
  induction e using EReal.rec with
  | bot => simp at he
  | top => simp [ht, EReal.coe_lt_top]
  | coe e =>
    have he' : 0 ≤ e := by exact_mod_cast he
    by_cases h0 : e = 0
    · subst h0
      simp [hy, (div_pos hy ht).le]
    · have : 0 < e := lt_of_le_of_ne he' (Ne.symm h0)
      simp only [EReal.coe_eq_zero, h0, if_false, EReal.coe_ne_top, EReal.coe_ne_bot, or_self, EReal.toReal_coe,
        EReal.coe_lt_coe_iff, abs_of_pos this]
      rw [div_lt_iff₀ ht, div_lt_iff₀ this, mul_comm]

theorem lt_fdivAbs {y t : ℝ} (hy : 0 < y) (ht : 0 < t) {e : EReal} (he : 0 ≤ e) : e < ((y / t : ℝ) : EReal) ↔ (t : EReal) < fdivAbs y e := by
  unfold fdivAbs
  induction e using EReal.rec with
  | bot => simp at he
  | top => simp [ht.le]
  | coe e =>
    have he' : 0 ≤ e := by exact_mod_cast he
    by_cases h0 : e = 0
    · subst h0
      simp [hy, (div_pos hy ht), EReal.coe_lt_top]
    · have : 0 < e := lt_of_le_of_ne he' (Ne.symm h0)
      simp only [EReal.coe_eq_zero, h0, if_false, EReal.coe_ne_top, EReal.coe_ne_bot, or_self, EReal.toReal_coe,
        EReal.coe_lt_coe_iff, abs_of_pos this]
      rw [lt_div_iff₀ ht, lt_div_iff₀ this, mul_comm]

theorem fdivAbs_neg {y : ℝ} (hy : y ≠ 0) (e : EReal) : fdivAbs (-y) e = -fdivAbs y e := by
  unfold fdivAbs
  split_ifs with h1 h2 h3 h3 h4
  · exact absurd h2 (by linarith)
  · simp
  · simp
  · exact absurd (lt_of_le_of_ne (not_lt.1 h3) hy) (by linarith)
  · simp
  · rw [neg_div, EReal.coe_neg]

theorem fdivAbs_neg_right (y : ℝ) (e : EReal) : fdivAbs y (-e) = fdivAbs y e := by
  unfold fdivAbs
  simp only [EReal.neg_eq_zero_iff, EReal.neg_eq_top_iff, EReal.neg_eq_bot_iff, or_comm (a := e = ⊥), EReal.toReal_neg_eq, abs_neg]

/-- the limits of the integration over the first variable -/
theorem limits {x : ℝ} {si sj : Seg ℝ} (hsi : si.isDirac = false) (hsj : sj.isDirac = false) (hwi : si.WF) (hwj : sj.WF)
    (hci : CutSeg si) (hcj : CutSeg sj) (P : Par) (h : TestMul x si sj) (hx : x ≠ 0) :
    ∃ L U : EReal, contProd P x si sj = (segint P.q P.qp (funI si sj x) L U false false false false).map Prod.fst ∧
      (L ≠ ⊥ ∨ U ≠ ⊤) ∧ ∀ t : ℝ, t ≠ 0 → ((L < t ∧ (t : EReal) < U) ↔ (t ∈ si.inner ∧ x / t ∈ sj.inner)) := by
  have hne : ∀ A B : EReal, max (lo si) A ≠ ⊥ ∨ min (hi si) B ≠ ⊤ := by
    intro A B
    rcases fin_end si with ⟨r, h⟩ | ⟨r, h⟩
    · exact .inl (by rw [h]; exact (lt_of_lt_of_le (EReal.bot_lt_coe r) (le_max_left _ _)).ne')
    · exact .inr (by rw [h]; exact (lt_of_le_of_lt (min_le_left _ _) (EReal.coe_lt_top r)).ne)
  have hcorner : ∀ v ∈ corners si sj, ∃ e ∈ [lo si, hi si], ∃ f ∈ [lo sj, hi sj], v = e * f := by
    intro v hv
    obtain ⟨e, he, f, hf, h⟩ := mem_corners.1 hv
    unfold fmul at h
    split_ifs at h
    simp only [Option.some.injEq] at h
    exact ⟨e, he, f, hf, h.symm⟩
  have li := (lo_lt_hi hsi hwi).le
  have lj := (lo_lt_hi hsj hwj).le
  have mem2 : ∀ {p : EReal → Prop} {a b : EReal}, p a → p b → ∀ e ∈ [a, b], p e := by
    intro p a b h1 h2 e he
    simp only [List.mem_cons, List.not_mem_nil, or_false] at he
    rcases he with rfl | rfl <;> assumption
  have same : (∀ e ∈ [lo si, hi si], ∀ f ∈ [lo sj, hi sj], 0 ≤ e * f) → 0 < x := by
    intro hp
    obtain ⟨c, hc, hcx⟩ := h.1
    obtain ⟨e, he, f, hf, rfl⟩ := hcorner c hc
    exact_mod_cast lt_of_le_of_lt (hp e he f hf) hcx
  have opp : (∀ e ∈ [lo si, hi si], ∀ f ∈ [lo sj, hi sj], e * f ≤ 0) → x < 0 := by
    intro hp
    obtain ⟨c, hc, hcx⟩ := h.2
    obtain ⟨e, he, f, hf, rfl⟩ := hcorner c hc
    exact_mod_cast lt_of_lt_of_le hcx (hp e he f hf)
  have hin : ∀ t : ℝ, (t ∈ si.inner ∧ x / t ∈ sj.inner) ↔
      ((lo si < t ∧ (t : EReal) < hi si) ∧ lo sj < ((x / t : ℝ) : EReal) ∧ ((x / t : ℝ) : EReal) < hi sj) := fun t => Iff.rfl
  rcases hci.side with hi0 | hi0 <;> rcases hcj.side with hj0 | hj0
  · have hx0 : 0 < x := same (mem2 (mem2 (EReal.mul_nonneg hi0 hj0) (EReal.mul_nonneg hi0 (hj0.trans lj)))
      (mem2 (EReal.mul_nonneg (hi0.trans li) hj0) (EReal.mul_nonneg (hi0.trans li) (hj0.trans lj))))
    have s1 : sgn (lo si + hi si) = 1 := by rw [sgn, if_pos (sgn_pos hsi hwi hi0)]
    refine ⟨max (lo si) (fdivAbs x (hi sj)), min (hi si) (fdivAbs x (lo sj)), ?_, hne _ _, ?_⟩
    · unfold contProd
      simp only [s1, one_mul]
      rw [if_pos (EReal.mul_pos (sgn_pos hsi hwi hi0) (sgn_pos hsj hwj hj0)), if_pos hx0]
    · intro t ht
      rw [hin, max_lt_iff, lt_min_iff]
      rcases lt_or_gt_of_ne ht with ht | ht
      · have : ¬ lo si < t := fun h => absurd (lt_of_le_of_lt hi0 h) (not_lt.2 (by exact_mod_cast ht.le))
        tauto
      · rw [fdivAbs_lt hx0 ht (hj0.trans lj), lt_fdivAbs hx0 ht hj0]
        tauto
  · have hx0 : x < 0 := opp (mem2 (mem2 (EReal.mul_nonpos_iff.2 (.inl ⟨hi0, lj.trans hj0⟩)) (EReal.mul_nonpos_iff.2 (.inl ⟨hi0, hj0⟩)))
      (mem2 (EReal.mul_nonpos_iff.2 (.inl ⟨hi0.trans li, lj.trans hj0⟩)) (EReal.mul_nonpos_iff.2 (.inl ⟨hi0.trans li, hj0⟩))))
    have s1 : sgn (lo si + hi si) = 1 := by rw [sgn, if_pos (sgn_pos hsi hwi hi0)]
    have hy : 0 < -x := by linarith
    refine ⟨max (lo si) (fdivAbs (-x) (lo sj)), min (hi si) (fdivAbs (-x) (hi sj)), ?_, hne _ _, ?_⟩
    · unfold contProd
      simp only [s1, neg_mul, one_mul]
      rw [if_neg (not_lt.2 (EReal.mul_nonpos_iff.2 (.inl ⟨(sgn_pos hsi hwi hi0).le, (sgn_neg hsj hwj hj0).le⟩))), if_pos hx0]
    · intro t ht
      rw [hin, max_lt_iff, lt_min_iff]
      rcases lt_or_gt_of_ne ht with ht | ht
      · have : ¬ lo si < t := fun h => absurd (lt_of_le_of_lt hi0 h) (not_lt.2 (by exact_mod_cast ht.le))
        tauto
      · rw [← fdivAbs_neg_right _ (lo sj), ← fdivAbs_neg_right _ (hi sj), ← fdivAbs_lt hy ht (by simpa using lj.trans hj0),
          ← lt_fdivAbs hy ht (by simpa using hj0), show x / t = -(-x / t) by ring, EReal.coe_neg, EReal.lt_neg_comm, EReal.neg_lt_comm]
        tauto
  · have hx0 : x < 0 := opp (mem2 (mem2 (EReal.mul_nonpos_iff.2 (.inr ⟨li.trans hi0, hj0⟩)) (EReal.mul_nonpos_iff.2 (.inr ⟨li.trans hi0, hj0.trans lj⟩)))
      (mem2 (EReal.mul_nonpos_iff.2 (.inr ⟨hi0, hj0⟩)) (EReal.mul_nonpos_iff.2 (.inr ⟨hi0, hj0.trans lj⟩))))
    have s1 : sgn (lo si + hi si) = -1 := by
      rw [sgn, if_neg (not_lt.2 (sgn_neg hsi hwi hi0).le), if_pos (sgn_neg hsi hwi hi0)]
    have hy : 0 < -x := by linarith
    refine ⟨max (lo si) (fdivAbs x (lo sj)), min (hi si) (fdivAbs x (hi sj)), ?_, hne _ _, ?_⟩
    · unfold contProd
      simp only [s1, neg_neg, one_mul]
      rw [if_neg (not_lt.2 (EReal.mul_nonpos_iff.2 (.inr ⟨(sgn_neg hsi hwi hi0).le, (sgn_pos hsj hwj hj0).le⟩))), if_pos hx0]
    · intro t ht
      rw [hin, max_lt_iff, lt_min_iff]
      rcases lt_or_gt_of_ne ht with ht | ht
      · have ht' : 0 < -t := by linarith
        have e : ∀ e, fdivAbs x e = -fdivAbs (-x) e := fun e => by rw [fdivAbs_neg hx, neg_neg]
        rw [e, e, EReal.neg_lt_comm, EReal.lt_neg_comm, ← EReal.coe_neg, ← lt_fdivAbs hy ht' hj0, ← fdivAbs_lt hy ht' (hj0.trans lj),
          neg_div_neg_eq]
        tauto
      · have : ¬ (t : EReal) < hi si := fun h => absurd (lt_of_lt_of_le h hi0) (not_lt.2 (by exact_mod_cast ht.le))
        tauto
  · have hx0 : 0 < x := same (mem2 (mem2 (EReal.mul_nonneg_iff.2 (.inr ⟨li.trans hi0, lj.trans hj0⟩)) (EReal.mul_nonneg_iff.2 (.inr ⟨li.trans hi0, hj0⟩)))
      (mem2 (EReal.mul_nonneg_iff.2 (.inr ⟨hi0, lj.trans hj0⟩)) (EReal.mul_nonneg_iff.2 (.inr ⟨hi0, hj0⟩))))
    have s1 : sgn (lo si + hi si) = -1 := by
      rw [sgn, if_neg (not_lt.2 (sgn_neg hsi hwi hi0).le), if_pos (sgn_neg hsi hwi hi0)]
    refine ⟨max (lo si) (fdivAbs (-x) (hi sj)), min (hi si) (fdivAbs (-x) (lo sj)), ?_, hne _ _, ?_⟩
    · unfold contProd
      simp only [s1, neg_mul, one_mul]
      rw [if_pos (EReal.mul_pos_iff.2 (.inr ⟨sgn_neg hsi hwi hi0, sgn_neg hsj hwj hj0⟩)), if_pos hx0]
    · intro t ht
      rw [hin, max_lt_iff, lt_min_iff]
      rcases lt_or_gt_of_ne ht with ht | ht
      · have ht' : 0 < -t := by linarith
        rw [fdivAbs_neg hx, fdivAbs_neg hx, EReal.neg_lt_comm, EReal.lt_neg_comm, ← EReal.coe_neg, ← fdivAbs_neg_right _ (lo sj),
          ← fdivAbs_neg_right _ (hi sj), ← lt_fdivAbs hx0 ht' (by simpa using hj0), ← fdivAbs_lt hx0 ht' (by simpa using lj.trans hj0),
          show x / t = -(x / -t) by rw [div_neg, neg_neg], EReal.coe_neg, EReal.lt_neg_comm, EReal.neg_lt_comm]
        tauto
      · have : ¬ (t : EReal) < hi si := fun h => absurd (lt_of_lt_of_le h hi0) (not_lt.2 (by exact_mod_cast ht.le))
        tauto

end Conv
end Pacal
