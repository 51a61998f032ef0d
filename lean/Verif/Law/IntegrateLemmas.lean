import Verif.Law.CdfLemmas
import Verif.Law.Congr

/-! What `integrate(a, b)` computes for each kind of segment. -/

namespace Pacal
open MeasureTheory Set Transform

/-- the open interval with possibly infinite ends -/
def ivl (a : WithBot ℝ) (b : WithTop ℝ) : Set ℝ := {x : ℝ | a < (x : WithBot ℝ) ∧ (x : WithTop ℝ) < b}

/-- `a ≤ b` for possibly infinite ends -/
def endsLe : WithBot ℝ → WithTop ℝ → Prop
  | some a, some b => a ≤ b
  | _, _ => True

@[simp] theorem ivl_coe (a b : ℝ) : ivl a b = Ioo a b := by ext x; simp [ivl]
@[simp] theorem ivl_bot_coe (b : ℝ) : ivl ⊥ b = Iio b := by ext x; simp [ivl]
@[simp] theorem ivl_coe_top (a : ℝ) : ivl a ⊤ = Ioi a := by ext x; simp [ivl]
@[simp] theorem ivl_bot_top : ivl ⊥ ⊤ = univ := by ext x; simp [ivl]

theorem ivl_measurable (a : WithBot ℝ) (b : WithTop ℝ) : MeasurableSet (ivl a b) := by
  induction a using WithBot.recBotCoe <;> induction b using WithTop.recTopCoe <;> simp

theorem clipLo_bot (s : ℝ) : clipLo s ⊥ = s := rfl
theorem clipHi_top (s : ℝ) : clipHi s ⊤ = s := rfl

theorem clip_inter {sa sb : ℝ} (a : WithBot ℝ) (b : WithTop ℝ) :
    ivl a b ∩ Ioo sa sb = Ioo (clipLo sa a) (clipHi sb b) := by
  induction a using WithBot.recBotCoe <;> induction b using WithTop.recTopCoe <;>
    ext x <;> simp [clipLo_bot, clipHi_top, clipLo_coe, clipHi_coe] <;> tauto

theorem clip_rev {sa sb : ℝ} {a : WithBot ℝ} {b : WithTop ℝ} (hab : endsLe a b)
    (h : clipHi sb b < clipLo sa a) : Ioo (clipHi sb b) (clipLo sa a) ∩ Ioo sa sb = ∅ := by
  rw [eq_empty_iff_forall_notMem]
  rintro x ⟨⟨h1, h2⟩, h3, h4⟩
  induction a using WithBot.recBotCoe with
  | bot => rw [clipLo_bot] at h2; linarith
  | coe a =>
    induction b using WithTop.recTopCoe with
    | top => rw [clipHi_top] at h1; linarith
    | coe b =>
      rw [clipLo_coe] at h2
      rw [clipHi_coe] at h1
      have hab' : a ≤ b := hab
      rcases lt_max_iff.1 h2 with h | h
      · rcases min_lt_iff.1 h1 with h' | h' <;> linarith
      · linarith

/-- integral over the clipped interval -/
theorem clip_integral {sa sb : ℝ} {g : ℝ → ℝ} (hg : ∀ t, t < sa ∨ sb < t → g t = 0)
    {a : WithBot ℝ} {b : WithTop ℝ} (hab : endsLe a b) :
    ∫ t in clipLo sa a..clipHi sb b, g t = ∫ t in ivl a b, g t := by
  have hae : g =ᵐ[volume] (Ioo sa sb).indicator g := by
    have : ∀ᵐ t ∂(volume : Measure ℝ), t ≠ sa ∧ t ≠ sb := by
      rw [Filter.eventually_and]
      constructor <;> simp [ae_iff]
    filter_upwards [this] with t ht
    by_cases h : t ∈ Ioo sa sb
    · rw [indicator_of_mem h]
    · rw [indicator_of_notMem h]
      apply hg
      by_contra hc
      push Not at hc
      exact h ⟨lt_of_le_of_ne hc.1 (Ne.symm ht.1), lt_of_le_of_ne hc.2 ht.2⟩
  have key : ∀ A : Set ℝ, ∫ t in A, g t = ∫ t in A ∩ Ioo sa sb, g t := by
    intro A
    rw [← setIntegral_indicator measurableSet_Ioo]
    exact integral_congr_ae (ae_restrict_of_ae hae)
  rw [key (ivl a b), clip_inter]
  rcases le_or_gt (clipLo sa a) (clipHi sb b) with h | h
  · rw [intervalIntegral.integral_of_le h, integral_Ioc_eq_integral_Ioo]
  · rw [intervalIntegral.integral_of_ge h.le, integral_Ioc_eq_integral_Ioo, key, clip_rev hab h,
      Ioo_eq_empty (not_lt.2 h.le)]
    simp

theorem fin_integrate {q : Quad} {p : QPar} (h : ExactQ q p) {pole : Pole} {sa sb : ℝ} {f : ℝ → ℝ}
    (hi : Integrable (fun t => (Seg.fin pole sa sb f).val t) volume) {a : WithBot ℝ} {b : WithTop ℝ}
    (hab : endsLe a b) :
    (Seg.fin pole sa sb f).integrate q p a b = ∫ t in ivl a b, (Seg.fin pole sa sb f).val t := by
  rw [← clip_integral (sa := sa) (sb := sb) (fun t ht => by
    rw [fin_val, if_neg]; rintro ⟨h1, h2⟩; rcases ht with ht | ht <;> linarith) hab]
  have ii : ∀ u v, IntervalIntegrable (fun t => (Seg.fin pole sa sb f).val t) volume u v :=
    fun u v => hi.intervalIntegrable
  cases pole with
  | none =>
    show (q _ (clipLo sa a) (clipHi sb b)).1 = _
    rw [h.exact, fin_call_interval]
  | left =>
    show (if clipLo sa a = clipHi sb b then 0 else
      (xnP q p.eps (Seg.fin .left sa sb f).call (clipLo sa a) (clipHi sb b) p.expPole).1) = _
    rw [xnP_eq h, fin_call_interval]
    split_ifs with e
    · rw [← e, intervalIntegral.integral_same]
    · rfl
  | right =>
    show (if clipLo sa a = clipHi sb b then 0 else if clipHi sb b = sb then
      (xnN q p.eps (Seg.fin .right sa sb f).call (clipLo sa a) (clipHi sb b) p.expPole).1 else
      (xnN q p.eps (Seg.fin .right sa sb f).call (clipLo sa a) sb p.expPole).1 -
      (xnN q p.eps (Seg.fin .right sa sb f).call (clipHi sb b) sb p.expPole).1) = _
    rw [xnN_eq h, xnN_eq h, xnN_eq h, fin_call_interval, fin_call_interval, fin_call_interval]
    split_ifs with e e'
    · rw [← e, intervalIntegral.integral_same]
    · rfl
    · rw [← intervalIntegral.integral_add_adjacent_intervals (ii (clipLo sa a) (clipHi sb b)) (ii (clipHi sb b) sb)]
      ring

theorem const_integrate (q : Quad) (p : QPar) {sa sb c : ℝ} {a : WithBot ℝ} {b : WithTop ℝ}
    (hab : endsLe a b) (hc : clipLo sa a ≤ clipHi sb b ∨ c = 0) :
    (Seg.const sa sb c).integrate q p a b = ∫ t in ivl a b, (Seg.const sa sb c).val t := by
  show c * (clipHi sb b - clipLo sa a) = _
  rcases hc with hle | rfl
  · have hlo : sa ≤ clipLo sa a := by
      induction a using WithBot.recBotCoe
      · exact le_rfl
      · rw [clipLo_coe]; exact le_max_right _ _
    have hhi : clipHi sb b ≤ sb := by
      induction b using WithTop.recTopCoe
      · exact le_rfl
      · rw [clipHi_coe]; exact min_le_right _ _
    rw [← clip_integral (sa := sa) (sb := sb) (fun t ht => by
      rw [const_val, if_neg]; rintro ⟨h1, h2⟩; rcases ht with ht | ht <;> linarith) hab,
      intervalIntegral.integral_of_le hle, integral_Ioc_eq_integral_Ioo,
      setIntegral_congr_fun (g := fun _ => c) measurableSet_Ioo (fun t ht => by
        show (Seg.const sa sb c).val t = c
        rw [const_val, if_pos ⟨hlo.trans ht.1.le, ht.2.trans_le hhi⟩])]
    simp [Measure.real, Real.volume_Ioo, ENNReal.toReal_ofReal (sub_nonneg.2 hle)]
    ring
  · simp [const_val]

theorem minf_integrate {q : Quad} {p : QPar} (h : ExactQ q p) (sb : ℝ) (f : ℝ → ℝ) (a : WithBot ℝ) (b : WithTop ℝ) :
    (Seg.minf sb f).integrate q p a b = ∫ t in ivl a b, (Seg.minf sb f).val t := by
  have e : (fun t => (Seg.minf sb f).val t) = (Iio sb).indicator f := by
    funext t; rw [minf_val]; simp [indicator]
  rw [e, setIntegral_indicator measurableSet_Iio]
  have hb : {x : ℝ | (x : WithTop ℝ) < b} ∩ Iio sb = Iio (clipHi sb b) := by
    induction b using WithTop.recTopCoe <;> ext x <;> simp [clipHi_top, clipHi_coe]
  induction a using WithBot.recBotCoe with
  | bot =>
    show (fejerM q f (some (clipHi sb b)) none p.expInf).1 = _
    refine ((C57_fejer_infinite h.exact f (clipHi sb b) h.expInf).2.2 : _).trans ?_
    rw [← hb]
    congr 2
    ext x; simp [ivl]
  | coe a =>
    show (if a < clipHi sb b then (fejerM q f (some (clipHi sb b)) (some a) p.expInf).1 else 0) = _
    have hset : ivl (a : WithBot ℝ) b ∩ Iio sb = Ioo a (clipHi sb b) := by
      have : ivl (a : WithBot ℝ) b ∩ Iio sb = Ioi a ∩ ({x : ℝ | (x : WithTop ℝ) < b} ∩ Iio sb) := by
        ext x; simp [ivl, and_assoc]
      rw [this, hb, Ioi_inter_Iio]
    rw [hset]
    split_ifs with hlt
    · refine ((C57_fejer_finite h.exact f hlt.le h.expInf).2 : _).trans ?_
      rw [integral_Icc_eq_integral_Ioo]
    · rw [Ioo_eq_empty hlt]; simp

theorem pinf_integrate_ivl {q : Quad} {p : QPar} (h : ExactQ q p) (sa : ℝ) (f : ℝ → ℝ) (a : WithBot ℝ) (b : WithTop ℝ) :
    (Seg.pinf sa f).integrate q p a b = ∫ t in ivl a b, (Seg.pinf sa f).val t := by
  have e : (fun t => (Seg.pinf sa f).val t) =ᵐ[volume] (Ioi sa).indicator f := by
    have : ∀ᵐ t ∂(volume : Measure ℝ), t ≠ sa := by simp [ae_iff]
    filter_upwards [this] with t ht
    rw [pinf_val]
    simp only [indicator, mem_Ioi]
    exact if_congr ⟨fun h => lt_of_le_of_ne h (Ne.symm ht), le_of_lt⟩ rfl rfl
  rw [integral_congr_ae (ae_restrict_of_ae e), setIntegral_indicator measurableSet_Ioi]
  have ha : {x : ℝ | a < (x : WithBot ℝ)} ∩ Ioi sa = Ioi (clipLo sa a) := by
    induction a using WithBot.recBotCoe <;> ext x <;> simp [clipLo_bot, clipLo_coe]
  induction b using WithTop.recTopCoe with
  | top =>
    show (fejerP q f (some (clipLo sa a)) none p.expInf).1 = _
    refine ((C57_fejer_infinite h.exact f (clipLo sa a) h.expInf).2.1 : _).trans ?_
    rw [← ha]
    congr 2
    ext x; simp [ivl]
  | coe b =>
    show (if b > clipLo sa a then (fejerP q f (some (clipLo sa a)) (some b) p.expInf).1 else 0) = _
    have hset : ivl a (b : WithTop ℝ) ∩ Ioi sa = Ioo (clipLo sa a) b := by
      have : ivl a (b : WithTop ℝ) ∩ Ioi sa = ({x : ℝ | a < (x : WithBot ℝ)} ∩ Ioi sa) ∩ Iio b := by
        ext x; simp [ivl]; tauto
      rw [this, ha, Ioi_inter_Iio]
    rw [hset]
    split_ifs with hlt
    · refine ((C57_fejer_finite h.exact f (le_of_lt hlt) h.expInf).1 : _).trans ?_
      rw [integral_Icc_eq_integral_Ioo]
    · rw [Ioo_eq_empty hlt]; simp

theorem dirac_integrate (q : Quad) (p : QPar) (x m : ℝ) (a : WithBot ℝ) (b : WithTop ℝ) :
    (Seg.dirac x m).integrate q p a b =
      (ivl a b ∪ {y : ℝ | a = (y : WithBot ℝ) ∧ b = (y : WithTop ℝ)}).indicator (fun _ => m) x := by
  show (if _ then m else 0) = _
  simp only [indicator, mem_union, ivl, mem_ofPred_eq]

theorem foldl_add_sum (l : PF ℝ) (g : Seg ℝ → ℝ) (y : ℝ) : l.foldl (fun I s => I + g s) y = y + (l.map g).sum := by
  induction l generalizing y with
  | nil => simp
  | cons s l ih => rw [List.foldl_cons, ih]; simp [add_assoc]

end Pacal
