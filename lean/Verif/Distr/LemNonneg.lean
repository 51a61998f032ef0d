import Verif.Distr.SpecNonneg
import Verif.Law.CdfLemmas
import Verif.Push.PropsComp
import Mathlib.Analysis.Real.Pi.Bounds
import Verif.Segments.PropsAssemble

/-!
Specification and lemmas for `Verif.Distr.PropsNonneg`.
-/

namespace Pacal
open MeasureTheory Set

theorem seg_room {s : Seg ℝ} (hw : s.WF) (hd : s.isDirac = false) (h : ¬ Ext.fin 0 ≤ s.lo) :
    ∃ p q : ℝ, p < q ∧ q ≤ 0 ∧ ∀ x, p < x → x < q → s.lo < .fin x ∧ .fin x < s.hi := by
  cases s with
  | fin po a b f =>
    have h' : a < 0 := by simpa [Seg.lo, Ext.fin_le_fin] using h
    have hab : a < b := hw
    exact ⟨a, min b 0, lt_min hab h', min_le_right _ _, fun x h1 h2 =>
      ⟨ext_lt.2 h1, ext_lt.2 (h2.trans_le (min_le_left _ _))⟩⟩
  | const a b c =>
    have h' : a < 0 := by simpa [Seg.lo, Ext.fin_le_fin] using h
    have hab : a < b := hw
    exact ⟨a, min b 0, lt_min hab h', min_le_right _ _, fun x h1 h2 =>
      ⟨ext_lt.2 h1, ext_lt.2 (h2.trans_le (min_le_left _ _))⟩⟩
  | minf b f =>
    refine ⟨min b 0 - 1, min b 0, by linarith, min_le_right _ _, fun x h1 h2 =>
      ⟨?_, ext_lt.2 (h2.trans_le (min_le_left _ _))⟩⟩
    exact lt_of_le_of_ne bot_le (by intro hc; cases hc)
  | pinf a f =>
    have h' : a < 0 := by simpa [Seg.lo, Ext.fin_le_fin] using h
    exact ⟨a, 0, h', le_rfl, fun x h1 h2 => ⟨ext_lt.2 h1, ext_lt_pinf x⟩⟩
  | dirac a m => cases hd

theorem cont_null_iff {s : Seg ℝ} (hw : s.WF) (hd : s.Dens) (hc : s.isDirac = false)
    (hp : ∀ x : ℝ, s.lo < .fin x → .fin x < s.hi → 0 < s.val x) :
    s.law.real (Iic 0) = 0 ↔ Ext.fin 0 ≤ s.lo := by
  obtain ⟨h0, hi⟩ := (Seg.dens_of_not hc).1 hd
  rw [Seg.law_real hc hd measurableSet_Iic]
  constructor
  · intro h
    by_contra hlo
    obtain ⟨p, q, hpq, hq, hx⟩ := seg_room hw hc hlo
    have hz := (setIntegral_eq_zero_iff_of_nonneg_ae (ae_restrict_of_ae h0) hi.integrableOn).1 h
    have hsub : Ioo p q ⊆ Iic 0 := fun x hx => (hx.2.trans_le hq).le
    have hz' := ae_restrict_of_ae_restrict_of_subset hsub hz
    replace hz' := (ae_restrict_iff' measurableSet_Ioo).1 hz'
    have : volume (Ioo p q) = 0 := by
      refine measure_mono_null (fun x hxm => ?_) (ae_iff.1 hz')
      intro hc
      have h1 := hx x hxm.1 hxm.2
      have h2 := hp x h1.1 h1.2
      have h3 : s.val x = 0 := hc hxm
      linarith
    rw [Real.volume_Ioo] at this
    have := ENNReal.ofReal_eq_zero.1 this
    linarith
  · intro hlo
    rw [integral_Iic_eq_integral_Iio]
    refine setIntegral_eq_zero_of_forall_eq_zero fun x hx => ?_
    unfold Seg.val
    rw [if_neg]
    rintro ⟨-, ha, -⟩
    have := hlo.trans ha
    rw [Ext.fin_le_fin] at this
    exact absurd hx (not_lt.2 this)

theorem nonneg_iff {eps : ℝ} {l : PF ℝ} (hw : PF.WF eps l) (hd : PF.Dens l) (hp : PF.Positive l) :
    PF.isNonneg l = true ↔ (PF.law l).real (Iic 0) = 0 := by
  rw [C56_isNonneg_iff, PF.law_real_eq_sum hd]
  have key : (l.map fun s => s.law.real (Iic 0)).sum = 0 ↔ ∀ s ∈ l, s.law.real (Iic 0) = 0 := by
    constructor
    · intro h s hs
      have h1 : s.law.real (Iic 0) ≤ (l.map fun s => s.law.real (Iic 0)).sum :=
        List.single_le_sum (fun x hx => by
          obtain ⟨t, -, rfl⟩ := List.mem_map.1 hx
          exact measureReal_nonneg) _ (List.mem_map.2 ⟨s, hs, rfl⟩)
      exact le_antisymm (h1.trans_eq h) measureReal_nonneg
    · intro h
      refine List.sum_eq_zero fun x hx => ?_
      obtain ⟨t, ht, rfl⟩ := List.mem_map.1 hx
      exact h t ht
  rw [key]
  constructor
  · rintro ⟨h1, h2⟩ s hs
    rcases hc : s.isDirac
    · refine (cont_null_iff (hw.seg s hs) (hd s hs) hc ?_).2 (h1 s hs hc)
      have := hp s hs
      cases s <;> first | exact this | cases hc
    · cases s with
      | dirac a m =>
        have hm : 0 ≤ m := hd _ hs
        rw [Seg.law_real_dirac hm measurableSet_Iic]
        exact indicator_of_notMem (by simpa using h2 a m hs) _
      | _ => cases hc
  · intro h
    refine ⟨fun s hs hc => ?_, fun a m hs => ?_⟩
    · refine (cont_null_iff (hw.seg s hs) (hd s hs) hc ?_).1 (h s hs)
      have := hp s hs
      cases s <;> first | exact this | cases hc
    · have hm : 0 ≤ m := hd _ hs
      have hm' : 0 < m := hp _ hs
      have := h _ hs
      rw [Seg.law_real_dirac hm measurableSet_Iic] at this
      by_contra hc
      rw [indicator_of_mem (by simpa using hc)] at this
      linarith

theorem nonneg_null {l : PF ℝ} (hd : PF.Dens l) (h : PF.isNonneg l = true) : (PF.law l).real (Iic 0) = 0 := by
  obtain ⟨h1, h2⟩ := (C56_isNonneg_iff l).1 h
  rw [PF.law_real_eq_sum hd]
  refine List.sum_eq_zero fun x hx => ?_
  obtain ⟨s, hs, rfl⟩ := List.mem_map.1 hx
  rcases hc : s.isDirac
  · rw [Seg.law_real hc (hd s hs) measurableSet_Iic, integral_Iic_eq_integral_Iio]
    refine setIntegral_eq_zero_of_forall_eq_zero fun x hx => ?_
    unfold Seg.val
    rw [if_neg]
    rintro ⟨-, ha, -⟩
    have := (h1 s hs hc).trans ha
    rw [Ext.fin_le_fin] at this
    exact absurd hx (not_lt.2 this)
  · cases s with
    | dirac a m =>
      rw [Seg.law_real_dirac (hd _ hs) measurableSet_Iic]
      exact indicator_of_notMem (by simpa using h2 a m hs) _
    | _ => cases hc

theorem log_distr (l : PF ℝ) : (Var.distr l).log = if PF.isNonneg l = true then .ok () else .error .value := by
  cases h : PF.isNonneg l <;> simp [Var.log, Var.isNonneg, h, Bind.bind, Except.bind] <;> rfl

theorem pow_other (d : Var ℝ) {x : ℝ} (h0 : x ≠ 0) (h1 : x ≠ 1) (hm : x ≠ -1) (h2 : x ≠ 2) : d.pow x = d.log := by
  unfold Var.pow
  rw [if_neg h0, if_neg h1, if_neg hm, if_neg h2]

theorem sqrt_distr (l : PF ℝ) : (Var.distr l).sqrt = (Var.distr l).log := by
  unfold Var.sqrt
  simp only [pow_other (Var.distr l) (x := 1 / 2) (by norm_num) (by norm_num) (by norm_num) (by norm_num)]
  cases h : PF.isNonneg l <;> simp [Var.log, Var.isNonneg, h, Bind.bind, Except.bind] <;> rfl

theorem answers_distr (l : PF ℝ) : (Var.distr l).Answers (if PF.isNonneg l = true then .ok () else .error .value) :=
  ⟨log_distr l, (sqrt_distr l).trans (log_distr l), log_distr l, fun _ h0 h1 hm h2 => (pow_other _ h0 h1 hm h2).trans (log_distr l)⟩

theorem positive_single {a b c : ℝ} (hc : 0 < c) : PF.Positive [.const a b c] := by
  intro s hs
  obtain rfl := List.mem_singleton.1 hs
  intro x h1 h2
  rw [const_val, if_pos ⟨(ext_lt.1 h1).le, ext_lt.1 h2⟩]
  exact hc

theorem wf_one {eps a b c : ℝ} (hab : a < b) : PF.WF eps [Seg.const a b c] :=
  ⟨by intro s hs; obtain rfl := List.mem_singleton.1 hs; exact hab, List.pairwise_singleton ..⟩

theorem dens_one (a b : ℝ) {c : ℝ} (hc : 0 ≤ c) : PF.Dens [Seg.const a b c] := by
  intro s hs
  obtain rfl := List.mem_singleton.1 hs
  exact const_dens a b hc

theorem law_one {a b c : ℝ} (hc : 0 ≤ c) {A : Set ℝ} (hA : MeasurableSet A) :
    (PF.law [Seg.const a b c]).real A = c * volume.real (A ∩ Ico a b) := by
  rw [PF.law_real_eq_sum (dens_one a b hc)]
  simp only [List.map_cons, List.map_nil, List.sum_cons, List.sum_nil, add_zero]
  rw [Seg.law_real rfl (const_dens a b hc) hA]
  have : (fun x => (Seg.const a b c).val x) = (Ico a b).indicator fun _ => c := by
    funext x; rw [const_val]; simp [indicator]
  rw [this, setIntegral_indicator measurableSet_Ico, setIntegral_const, smul_eq_mul, mul_comm]

end Pacal
