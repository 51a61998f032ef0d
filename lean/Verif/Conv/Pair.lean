import Verif.Conv.Model
import Verif.Push.Map
import Verif.Law.Integrals
import Verif.Transform.PropsFront
import Mathlib.MeasureTheory.Group.Integral
import Mathlib.MeasureTheory.Measure.Haar.Unique

/-! One pair of continuous pieces: every branch of `conv_at_point` computes the convolution integral. -/

namespace Pacal
namespace Conv
open MeasureTheory Set Transform

/-- the density of a continuous piece, 0 outside its open interval -/
noncomputable def den (s : Seg ℝ) : ℝ → ℝ := s.inner.indicator s.fn

theorem den_nonneg {s : Seg ℝ} (hs : s.isDirac = false) (hd : s.Dens) : ∀ᵐ x, 0 ≤ den s x := by
  rw [Seg.dens_inner hs] at hd
  filter_upwards [hd.1] with x hx
  exact indicator_apply_nonneg hx

theorem den_integrable {s : Seg ℝ} (hs : s.isDirac = false) (hd : s.Dens) : Integrable (den s) := by
  rw [Seg.dens_inner hs] at hd
  rw [den, integrable_indicator_iff s.measurableSet_inner]
  exact hd.2

theorem den_law {s : Seg ℝ} (hs : s.isDirac = false) : s.law = volume.withDensity fun x => ENNReal.ofReal (den s x) := by
  rw [Seg.law_inner hs, ← withDensity_indicator s.measurableSet_inner]
  congr 1
  ext x
  by_cases h : x ∈ s.inner <;> simp [den, h]

theorem mem_inner {s : Seg ℝ} {x : ℝ} : x ∈ s.inner ↔ lo s < (x : EReal) ∧ (x : EReal) < hi s := Iff.rfl

theorem sub_lt_iff' (e : EReal) (x t : ℝ) : ((x - t : ℝ) : EReal) < e ↔ (x : EReal) - e < (t : EReal) := by
  induction e using EReal.rec with
  | bot => simp
  | top => exact ⟨fun _ => by simp [EReal.bot_lt_coe], fun _ => EReal.coe_lt_top _⟩
  | coe y =>
    rw [← EReal.coe_sub, EReal.coe_lt_coe_iff, EReal.coe_lt_coe_iff]
    constructor <;> intro h <;> linarith

theorem lt_sub_iff' (e : EReal) (x t : ℝ) : e < ((x - t : ℝ) : EReal) ↔ (t : EReal) < (x : EReal) - e := by
  induction e using EReal.rec with
  | bot => exact ⟨fun _ => by simp [EReal.coe_lt_top], fun _ => EReal.bot_lt_coe _⟩
  | top => simp
  | coe y =>
    rw [← EReal.coe_sub, EReal.coe_lt_coe_iff, EReal.coe_lt_coe_iff]
    constructor <;> intro h <;> linarith

/-- lower and upper limit of the integration over the first variable -/
noncomputable def Lx (x : ℝ) (si sj : Seg ℝ) : EReal := max (lo si) (x - hi sj)
/-- lower and upper limit of the integration over the first variable -/
noncomputable def Ux (x : ℝ) (si sj : Seg ℝ) : EReal := min (hi si) (x - lo sj)

theorem openBetween_ae (L U : EReal) : {t : ℝ | L < t ∧ (t : EReal) < U} =ᵐ[volume] between L U := by
  have h1 : ∀ e : EReal, ∀ᵐ t : ℝ, (t : EReal) ≠ e := by
    intro e
    have hsub : ({t : ℝ | (t : EReal) = e}).Subsingleton := by
      intro x hx y hy
      exact EReal.coe_eq_coe_iff.1 (Eq.trans hx (Eq.symm hy))
    rw [ae_iff]
    simpa using hsub.measure_zero volume
  filter_upwards [h1 L, h1 U] with t h1 h2
  refine propext ⟨fun h => ⟨h.1.le, h.2.le⟩, fun h => ⟨lt_of_le_of_ne h.1 (Ne.symm h1), lt_of_le_of_ne h.2 h2⟩⟩

theorem openBetween_measurable (L U : EReal) : MeasurableSet {t : ℝ | L < t ∧ (t : EReal) < U} :=
  (measurableSet_lt measurable_const measurable_coe_real_ereal).inter (measurableSet_lt measurable_coe_real_ereal measurable_const)

theorem den_mul (si sj : Seg ℝ) (x : ℝ) :
    (fun t => den si t * den sj (x - t)) = {t : ℝ | Lx x si sj < t ∧ (t : EReal) < Ux x si sj}.indicator (funC1 si sj x) := by
  have key : ∀ t : ℝ, (t ∈ si.inner ∧ x - t ∈ sj.inner) ↔ (Lx x si sj < t ∧ (t : EReal) < Ux x si sj) := by
    intro t
    rw [mem_inner, mem_inner, sub_lt_iff', lt_sub_iff', Lx, Ux, max_lt_iff, lt_min_iff]
    tauto
  ext t
  by_cases h : t ∈ si.inner ∧ x - t ∈ sj.inner
  · rw [indicator_of_mem (show t ∈ {t : ℝ | Lx x si sj < t ∧ (t : EReal) < Ux x si sj} from (key t).1 h)]
    simp [den, h.1, h.2, funC1]
  · rw [indicator_of_notMem (show t ∉ {t : ℝ | Lx x si sj < t ∧ (t : EReal) < Ux x si sj} from fun h' => h ((key t).2 h'))]
    rw [not_and_or] at h
    rcases h with h | h <;> simp [den, h]

/-- the convolution integral of two pieces -/
noncomputable def cint (si sj : Seg ℝ) (x : ℝ) : ℝ := ∫ t, den si t * den sj (x - t)

theorem cint_eq (si sj : Seg ℝ) (x : ℝ) : ∫ t in between (Lx x si sj) (Ux x si sj), funC1 si sj x t = cint si sj x := by
  rw [cint, den_mul, integral_indicator (openBetween_measurable _ _)]
  exact (setIntegral_congr_set (openBetween_ae _ _)).symm

theorem cint_integrableOn {si sj : Seg ℝ} {x : ℝ} (h : Integrable fun t => den si t * den sj (x - t)) :
    IntegrableOn (funC1 si sj x) (between (Lx x si sj) (Ux x si sj)) := by
  rw [den_mul, integrable_indicator_iff (openBetween_measurable _ _)] at h
  exact h.congr_set_ae (openBetween_ae _ _).symm

theorem cint_comm (si sj : Seg ℝ) (x : ℝ) : cint si sj x = cint sj si x := by
  rw [cint, cint, ← integral_sub_left_eq_self _ volume x]
  simp only [sub_sub_cancel]
  exact integral_congr_ae (Filter.Eventually.of_forall fun t => mul_comm _ _)

theorem cint_int_comm {si sj : Seg ℝ} {x : ℝ} (h : Integrable fun t => den si t * den sj (x - t)) :
    Integrable fun t => den sj t * den si (x - t) := by
  have := h.comp_sub_left x
  simp only [sub_sub_cancel] at this
  exact this.congr (Filter.Eventually.of_forall fun t => mul_comm _ _)

theorem funC2_eq (si sj : Seg ℝ) (x : ℝ) : funC2 si sj x = funC1 sj si x := by
  ext t; exact mul_comm _ _

/-- the pair contributes at `x` -/
def Meets (x : ℝ) (si sj : Seg ℝ) : Prop := (x : EReal) - lo si > lo sj ∧ (x : EReal) - hi si < hi sj

theorem safeA_eq {p : QPar} (hp : p.eps = 0) (s : Seg ℝ) : safeA p s = lo s := by
  rcases s with ⟨_ | _ | _, a, b, f⟩ | _ | _ | _ | _ <;> try rfl
  by_cases h : a = 0
  · subst h; simp [safeA, lo, Seg.lo, Ext.fin]; rfl
  · simp [safeA, h, hp]; rfl

theorem safeB_eq {p : QPar} (hp : p.eps = 0) (s : Seg ℝ) : safeB p s = hi s := by
  rcases s with ⟨_ | _ | _, a, b, f⟩ | _ | _ | _ | _ <;> try rfl
  by_cases h : b = 0
  · subst h; simp [safeB, hi, Seg.hi, Ext.fin]; rfl
  · simp [safeB, h, hp]; rfl

/-- the possible shapes of a continuous piece -/
theorem shape {s : Seg ℝ} (hs : s.isDirac = false) (hw : s.WF) :
    (∃ a b : ℝ, a < b ∧ lo s = a ∧ hi s = b) ∨ (∃ b : ℝ, lo s = ⊥ ∧ hi s = b) ∨ (∃ a : ℝ, lo s = a ∧ hi s = ⊤) := by
  rcases s with ⟨_, a, b, _⟩ | ⟨a, b, _⟩ | ⟨b, _⟩ | ⟨a, _⟩ | _
  · exact .inl ⟨a, b, hw, rfl, rfl⟩
  · exact .inl ⟨a, b, hw, rfl, rfl⟩
  · exact .inr (.inl ⟨b, rfl, rfl⟩)
  · exact .inr (.inr ⟨a, rfl, rfl⟩)
  · simp [Seg.isDirac] at hs

theorem lo_lt_hi {s : Seg ℝ} (hs : s.isDirac = false) (hw : s.WF) : lo s < hi s := by
  rcases shape hs hw with ⟨a, b, h, e1, e2⟩ | ⟨b, e1, e2⟩ | ⟨a, e1, e2⟩ <;> rw [e1, e2]
  · exact_mod_cast h
  · exact EReal.bot_lt_coe b
  · exact EReal.coe_lt_top a

theorem Meets.symm {x : ℝ} {si sj : Seg ℝ} (h : Meets x si sj) : Meets x sj si := by
  have key : ∀ a b : EReal, (x : EReal) - a > b → (x : EReal) - b > a := by
    intro a b h
    induction a using EReal.rec <;> induction b using EReal.rec <;> simp_all
    · rw [← EReal.coe_sub]; exact EReal.bot_lt_coe _
    · rw [← EReal.coe_sub, EReal.coe_lt_coe_iff] at h ⊢
      linarith
  have key2 : ∀ a b : EReal, (x : EReal) - a < b → (x : EReal) - b < a := by
    intro a b h
    induction a using EReal.rec <;> induction b using EReal.rec <;> simp_all
    · rw [← EReal.coe_sub, EReal.coe_lt_coe_iff] at h ⊢
      linarith
    · rw [← EReal.coe_sub]; exact EReal.coe_lt_top _
  exact ⟨key _ _ h.1, key2 _ _ h.2⟩

theorem Lx_lt_Ux {x : ℝ} {si sj : Seg ℝ} (hi' : lo si < hi si) (hj : lo sj < hi sj) (h : Meets x si sj) :
    Lx x si sj < Ux x si sj := by
  rw [Lx, Ux, max_lt_iff, lt_min_iff, lt_min_iff]
  refine ⟨⟨hi', h.symm.1⟩, h.symm.2, ?_⟩
  have : ∀ a b : EReal, a < b → (x : EReal) - b < (x : EReal) - a := by
    intro a b h
    induction a using EReal.rec <;> induction b using EReal.rec <;> simp_all [EReal.bot_lt_coe]
    · rw [← EReal.coe_sub]; exact EReal.coe_lt_top _
    · rw [← EReal.coe_sub, ← EReal.coe_sub, EReal.coe_lt_coe_iff]
      linarith
    · rw [← EReal.coe_sub]; exact EReal.bot_lt_coe _
  exact this _ _ hj

/-- the dispatcher `_segint` on the range of the first variable -/
theorem segint_one {P : Par} (hP : ExactQ P.q P.qp) {x : ℝ} {si sj : Seg ℝ} (hLU : Lx x si sj < Ux x si sj)
    (hne : Lx x si sj ≠ ⊥ ∨ Ux x si sj ≠ ⊤) (h : Integrable fun t => den si t * den sj (x - t)) (pl pu : Bool) :
    (segint P.q P.qp (funC1 si sj x) (Lx x si sj) (Ux x si sj) false false pl pu).map Prod.fst = .ok (cint si sj x) := by
  obtain ⟨r, h1, h2⟩ := C57_segint hP.exact hP.eps hP.cond hP.expInf hP.expPole hLU.le hne (cint_integrableOn h) pl pu
  rw [h1]
  show Except.ok r.1 = _
  rw [IsIntegral] at h2
  rw [h2, cint_eq]

theorem between_coe (a b : ℝ) : between (a : EReal) b = Icc a b := by
  ext x; simp only [between, mem_ofPred_eq, EReal.coe_le_coe_iff, mem_Icc]

/-- halves of the range: the second half is integrated over the other variable -/
theorem halves {si sj : Seg ℝ} {x L U : ℝ} (hL : Lx x si sj = L) (hU : Ux x si sj = U) (_hLU : L < U)
    (h : Integrable fun t => den si t * den sj (x - t)) {m : ℝ} (h1 : L ≤ m) (h2 : m ≤ U) :
    IntegrableOn (funC1 si sj x) (Icc L m) ∧ IntegrableOn (funC1 si sj x) (Icc m U) ∧
    IntegrableOn (funC2 si sj x) (Icc (x - U) (x - m)) ∧ IntegrableOn (funC2 si sj x) (Icc (x - m) (x - L)) ∧
    (∫ t in Icc L m, funC1 si sj x t) + (∫ t in Icc (x - U) (x - m), funC2 si sj x t) = cint si sj x ∧
    (∫ t in Icc m U, funC1 si sj x t) + (∫ t in Icc (x - m) (x - L), funC2 si sj x t) = cint si sj x := by
  have hI := cint_integrableOn h
  rw [hL, hU, between_coe] at hI
  have i1 : IntegrableOn (funC1 si sj x) (Icc L m) := hI.mono_set (Icc_subset_Icc_right h2)
  have i2 : IntegrableOn (funC1 si sj x) (Icc m U) := hI.mono_set (Icc_subset_Icc_left h1)
  have hsw : ∀ a b : ℝ, IntegrableOn (funC1 si sj x) (Icc a b) → IntegrableOn (funC2 si sj x) (Icc (x - b) (x - a)) := by
    intro a b hab
    have e : funC2 si sj x = fun t => funC1 si sj x (x - t) := by
      ext t; simp [funC2, funC1]
    rw [← integrable_indicator_iff measurableSet_Icc] at hab ⊢
    have := hab.comp_sub_left x
    refine this.congr (Filter.Eventually.of_forall fun t => ?_)
    show (Icc a b).indicator (funC1 si sj x) (x - t) = (Icc (x - b) (x - a)).indicator (funC2 si sj x) t
    by_cases ht : t ∈ Icc (x - b) (x - a)
    · have : x - t ∈ Icc a b := ⟨by linarith [ht.2], by linarith [ht.1]⟩
      rw [indicator_of_mem ht, indicator_of_mem this, e]
    · have : x - t ∉ Icc a b := fun h' => ht ⟨by linarith [h'.2], by linarith [h'.1]⟩
      rw [indicator_of_notMem ht, indicator_of_notMem this]
  have hval : ∀ a b : ℝ, a ≤ b → ∫ t in Icc (x - b) (x - a), funC2 si sj x t = ∫ t in Icc a b, funC1 si sj x t := by
    intro a b hab
    rw [integral_Icc_eq_integral_Ioc, integral_Icc_eq_integral_Ioc, ← intervalIntegral.integral_of_le hab,
      ← intervalIntegral.integral_of_le (by linarith : x - b ≤ x - a)]
    have e : funC2 si sj x = fun t => funC1 si sj x (x - t) := by
      ext t; simp [funC2, funC1]
    rw [e, intervalIntegral.integral_comp_sub_left]
    simp
  have hadd : (∫ t in Icc L m, funC1 si sj x t) + (∫ t in Icc m U, funC1 si sj x t) = cint si sj x := by
    have h3 : IsIntegral (Icc L m) (funC1 si sj x) (∫ t in Icc L m, funC1 si sj x t, 0) := rfl
    have h4 : IsIntegral (Icc m U) (funC1 si sj x) (∫ t in Icc m U, funC1 si sj x t, 0) := rfl
    have := IsIntegral.add h1 h2 hI h3 h4
      (u := ((∫ t in Icc L m, funC1 si sj x t) + (∫ t in Icc m U, funC1 si sj x t), 0)) rfl
    rw [IsIntegral] at this
    rw [← cint_eq, hL, hU, between_coe]
    exact this
  refine ⟨i1, i2, hsw m U i2, hsw L m i1, ?_, ?_⟩
  · rw [hval m U h2]; exact hadd
  · rw [hval L m h1, add_comm]; exact hadd

theorem segint_icc {q : Quad} {p : QPar} (hP : ExactQ q p) {f : ℝ → ℝ} {a b : ℝ} (hab : a ≤ b)
    (hf : IntegrableOn f (Icc a b)) (pl pu : Bool) :
    ∃ r, segint q p f a b false false pl pu = .ok r ∧ r.1 = ∫ t in Icc a b, f t := by
  obtain ⟨r, h1, h2⟩ := C57_segint hP.exact hP.eps hP.cond hP.expInf hP.expPole (EReal.coe_le_coe_iff.2 hab)
    (.inl (EReal.coe_ne_bot a)) (by rw [between_coe]; exact hf) pl pu
  rw [between_coe] at h2
  exact ⟨r, h1, h2⟩

theorem sub_coe_top (x : ℝ) : (x : EReal) - ⊤ = ⊥ := EReal.sub_top _
theorem sub_coe_bot (x : ℝ) : (x : EReal) - ⊥ = ⊤ := by simp

/-- every branch computes the convolution integral -/
theorem contSum_eq {P : Par} (hP : ExactQ P.q P.qp) {x : ℝ} {si sj : Seg ℝ} (hsi : si.isDirac = false)
    (hsj : sj.isDirac = false) (hwi : si.WF) (hwj : sj.WF) (hm : Meets x si sj)
    (h : Integrable fun t => den si t * den sj (x - t)) : contSum P x si sj = .ok (cint si sj x) := by
  have hij := Lx_lt_Ux (lo_lt_hi hsi hwi) (lo_lt_hi hsj hwj) hm
  have hji := Lx_lt_Ux (lo_lt_hi hsj hwj) (lo_lt_hi hsi hwi) hm.symm
  have h' := cint_int_comm h
  have one := fun hne pl pu => segint_one hP hij hne h pl pu
  have two := fun hne pl pu => segint_one hP hji hne h' pl pu
  rw [← funC2_eq si sj x, cint_comm sj si] at two
  unfold contSum
  simp only [safeA_eq hP.eps, safeB_eq hP.eps]
  rw [show max (lo si) (x - hi sj) = Lx x si sj from rfl, show min (hi si) (x - lo sj) = Ux x si sj from rfl,
    show max (lo sj) (x - hi si) = Lx x sj si from rfl, show min (hi sj) (x - lo si) = Ux x sj si from rfl]
  have nb : ∀ a : ℝ, ¬ isInf (a : EReal) := fun a => by simp [isInf]
  have it : isInf ⊤ := .inl rfl
  have ib : isInf ⊥ := .inr rfl
  rcases shape hsi hwi with ⟨ai, bi, hab, ei1, ei2⟩ | ⟨bi, ei1, ei2⟩ | ⟨ai, ei1, ei2⟩ <;>
    rcases shape hsj hwj with ⟨aj, bj, habj, ej1, ej2⟩ | ⟨bj, ej1, ej2⟩ | ⟨aj, ej1, ej2⟩ <;>
    simp only [ei1, ei2, ej1, ej2, nb, it, ib, not_true_eq_false, not_false_eq_true, and_true, true_and, and_false,
      false_and, or_true, true_or, or_false, or_self, and_self, if_true, if_false]
  · -- both finite
    have eL : Lx x si sj = ((max ai (x - bj) : ℝ) : EReal) := by rw [Lx, ei1, ej2]; norm_cast
    have eU : Ux x si sj = ((min bi (x - aj) : ℝ) : EReal) := by rw [Ux, ei2, ej1]; norm_cast
    have eL' : Lx x sj si = ((max aj (x - bi) : ℝ) : EReal) := by rw [Lx, ej1, ei2]; norm_cast
    have eU' : Ux x sj si = ((min bj (x - ai) : ℝ) : EReal) := by rw [Ux, ej2, ei1]; norm_cast
    have n1 : Lx x si sj ≠ ⊥ ∨ Ux x si sj ≠ ⊤ := .inl (by rw [eL]; exact EReal.coe_ne_bot _)
    have n2 : Lx x sj si ≠ ⊥ ∨ Ux x sj si ≠ ⊤ := .inl (by rw [eL']; exact EReal.coe_ne_bot _)
    have r1 : max aj (x - bi) = x - min bi (x - aj) := by
      rcases le_total bi (x - aj) with h | h
      · rw [min_eq_left h, max_eq_right (by linarith)]
      · rw [min_eq_right h, max_eq_left (by linarith)]; ring
    have r2 : min bj (x - ai) = x - max ai (x - bj) := by
      rcases le_total ai (x - bj) with h | h
      · rw [max_eq_right h, min_eq_left (by linarith)]; ring
      · rw [max_eq_left h, min_eq_right (by linarith)]
    have hlt : max ai (x - bj) < min bi (x - aj) := by
      rw [eL, eU] at hij; exact_mod_cast hij
    split_ifs with c1 c2 c3 c4
    · obtain ⟨k1, k2, k3, k4, k5, k6⟩ := halves eL eU hlt h (m := (max ai (x - bj) + min bi (x - aj)) / 2)
        (by linarith) (by linarith)
      rw [eL, eU, eL', eU', r1, r2]
      simp only [EReal.toReal_coe]
      have em : (x - min bi (x - aj) + (x - max ai (x - bj))) / 2 = x - (max ai (x - bj) + min bi (x - aj)) / 2 := by ring
      rw [em]
      obtain ⟨s1, s2, s3⟩ := segint_icc hP (by linarith) k1 true false
      obtain ⟨t1, t2, t3⟩ := segint_icc hP (by linarith) k3 true false
      rw [s2, t2]
      show Except.ok (s1.1 + t1.1) = _
      rw [s3, t3, k5]
    · obtain ⟨k1, k2, k3, k4, k5, k6⟩ := halves eL eU hlt h (m := (max ai (x - bj) + min bi (x - aj)) / 2)
        (by linarith) (by linarith)
      rw [eL, eU, eL', eU', r1, r2]
      simp only [EReal.toReal_coe]
      have em : (x - min bi (x - aj) + (x - max ai (x - bj))) / 2 = x - (max ai (x - bj) + min bi (x - aj)) / 2 := by ring
      rw [em]
      obtain ⟨s1, s2, s3⟩ := segint_icc hP (by linarith) k2 false true
      obtain ⟨t1, t2, t3⟩ := segint_icc hP (by linarith) k4 false true
      rw [s2, t2]
      show Except.ok (s1.1 + t1.1) = _
      rw [s3, t3, k6]
    · exact one n1 _ _
    · exact two n2 _ _
    · exact one n1 _ _
  · exact one (.inl (by rw [Lx, ei1]; exact (lt_of_lt_of_le (EReal.bot_lt_coe ai) (le_max_left _ _)).ne')) _ _
  · exact one (.inl (by rw [Lx, ei1]; exact (lt_of_lt_of_le (EReal.bot_lt_coe ai) (le_max_left _ _)).ne')) _ _
  · exact two (.inl (by rw [Lx, ej1]; exact (lt_of_lt_of_le (EReal.bot_lt_coe aj) (le_max_left _ _)).ne')) _ _
  · -- two left tails
    have eL : Lx x si sj = ((x - bj : ℝ) : EReal) := by rw [Lx, ei1, ej2]; simp
    have eU : Ux x si sj = (bi : EReal) := by rw [Ux, ei2, ej1, sub_coe_bot]; simp
    have eL' : Lx x sj si = ((x - bi : ℝ) : EReal) := by rw [Lx, ej1, ei2]; simp
    have eU' : Ux x sj si = (bj : EReal) := by rw [Ux, ej2, ei1, sub_coe_bot]; simp
    have hlt : x - bj < bi := by rw [eL, eU] at hij; exact_mod_cast hij
    obtain ⟨k1, k2, k3, k4, k5, k6⟩ := halves eL eU hlt h (m := (x - bj + bi) / 2) (by linarith) (by linarith)
    rw [eL, eU, eL', eU']
    simp only [EReal.toReal_coe]
    have em : (x - bi + bj) / 2 = x - (x - bj + bi) / 2 := by ring
    have e2 : bj = x - (x - bj) := by ring
    have s := (C57_guess hP.exact (by linarith) k2 hP.expInf).1
    have t := (C57_guess hP.exact (by linarith) k4 hP.expInf).1
    rw [IsIntegral] at s t
    rw [← e2] at t k6
    rw [em, s, t, k6]
  · -- left tail and right tail
    have eL : Lx x si sj = ⊥ := by rw [Lx, ei1, ej2, sub_coe_top]; simp
    have eU : Ux x si sj = ((min bi (x - aj) : ℝ) : EReal) := by rw [Ux, ei2, ej1]; norm_cast
    have eL' : Lx x sj si = ((max aj (x - bi) : ℝ) : EReal) := by rw [Lx, ej1, ei2]; norm_cast
    have eU' : Ux x sj si = ⊤ := by rw [Ux, ej2, ei1, sub_coe_bot]; simp
    split_ifs with c
    · rw [show (Ux x si sj).toReal = min bi (x - aj) by rw [eU]; rfl]
      have := (C57_fejer_infinite hP.exact (funC1 si sj x) (min bi (x - aj)) hP.expInf).2.2
      rw [IsIntegral] at this
      have e : between (Lx x si sj) (Ux x si sj) = Iic (min bi (x - aj)) := by
        rw [eL, eU]; ext t; simp only [between, mem_ofPred_eq, bot_le, true_and, EReal.coe_le_coe_iff, mem_Iic]
      rw [← cint_eq, e, integral_Iic_eq_integral_Iio, ← this]; rfl
    · rw [show (Lx x sj si).toReal = max aj (x - bi) by rw [eL']; rfl]
      have := (C57_fejer_infinite hP.exact (funC2 si sj x) (max aj (x - bi)) hP.expInf).2.1
      rw [IsIntegral] at this
      have e : between (Lx x sj si) (Ux x sj si) = Ici (max aj (x - bi)) := by
        rw [eL', eU']; ext t; simp only [between, mem_ofPred_eq, le_top, and_true, EReal.coe_le_coe_iff, mem_Ici]
      rw [cint_comm, ← cint_eq, e, integral_Ici_eq_integral_Ioi, ← funC2_eq, ← this]; rfl
  · exact two (.inl (by rw [Lx, ej1]; exact (lt_of_lt_of_le (EReal.bot_lt_coe aj) (le_max_left _ _)).ne')) _ _
  · -- right tail and left tail
    have eL : Lx x si sj = ((max ai (x - bj) : ℝ) : EReal) := by rw [Lx, ei1, ej2]; norm_cast
    have eU : Ux x si sj = ⊤ := by rw [Ux, ei2, ej1, sub_coe_bot]; simp
    have eL' : Lx x sj si = ⊥ := by rw [Lx, ej1, ei2, sub_coe_top]; simp
    have eU' : Ux x sj si = ((min bj (x - ai) : ℝ) : EReal) := by rw [Ux, ej2, ei1]; norm_cast
    split_ifs with c
    · rw [show (Lx x si sj).toReal = max ai (x - bj) by rw [eL]; rfl]
      have := (C57_fejer_infinite hP.exact (funC1 si sj x) (max ai (x - bj)) hP.expInf).2.1
      rw [IsIntegral] at this
      have e : between (Lx x si sj) (Ux x si sj) = Ici (max ai (x - bj)) := by
        rw [eL, eU]; ext t; simp only [between, mem_ofPred_eq, le_top, and_true, EReal.coe_le_coe_iff, mem_Ici]
      rw [← cint_eq, e, integral_Ici_eq_integral_Ioi, ← this]; rfl
    · rw [show (Ux x sj si).toReal = min bj (x - ai) by rw [eU']; rfl]
      have := (C57_fejer_infinite hP.exact (funC2 si sj x) (min bj (x - ai)) hP.expInf).2.2
      rw [IsIntegral] at this
      have e : between (Lx x sj si) (Ux x sj si) = Iic (min bj (x - ai)) := by
        rw [eL', eU']; ext t; simp only [between, mem_ofPred_eq, bot_le, true_and, EReal.coe_le_coe_iff, mem_Iic]
      rw [cint_comm, ← cint_eq, e, integral_Iic_eq_integral_Iio, ← funC2_eq, ← this]; rfl
  · -- two right tails
    have eL : Lx x si sj = (ai : EReal) := by rw [Lx, ei1, ej2, sub_coe_top]; simp
    have eU : Ux x si sj = ((x - aj : ℝ) : EReal) := by rw [Ux, ei2, ej1]; simp
    have eL' : Lx x sj si = (aj : EReal) := by rw [Lx, ej1, ei2, sub_coe_top]; simp
    have eU' : Ux x sj si = ((x - ai : ℝ) : EReal) := by rw [Ux, ej2, ei1]; simp
    have hlt : ai < x - aj := by rw [eL, eU] at hij; exact_mod_cast hij
    obtain ⟨k1, k2, k3, k4, k5, k6⟩ := halves eL eU hlt h (m := (ai + (x - aj)) / 2) (by linarith) (by linarith)
    rw [eL, eU, eL', eU']
    simp only [EReal.toReal_coe]
    have em : (aj + (x - ai)) / 2 = x - (ai + (x - aj)) / 2 := by ring
    have e2 : aj = x - (x - aj) := by ring
    have s := (C57_guess hP.exact (by linarith) k1 hP.expInf).1
    have t := (C57_guess hP.exact (by linarith) k3 hP.expInf).1
    rw [IsIntegral] at s t
    rw [← e2] at t k5
    rw [em, s, t, k5]

end Conv
end Pacal
