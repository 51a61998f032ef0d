import Verif.Push.Map
import Verif.Push.Model

/-! Lemmas about `shiftAndScale`. -/

namespace Pacal
open MeasureTheory Set

theorem extFin_lt {x y : ℝ} : Ext.fin x < Ext.fin y ↔ x < y := by simp [Ext.fin]
theorem extFin_le {x y : ℝ} : Ext.fin x ≤ Ext.fin y ↔ x ≤ y := by simp [Ext.fin]
theorem extFin_lt_pinf (x : ℝ) : Ext.fin x < Ext.pinf := WithBot.coe_lt_coe.2 (WithTop.coe_lt_top x)
theorem ninf_lt_extFin (x : ℝ) : Ext.ninf < Ext.fin x := WithBot.bot_lt_coe _
theorem ninf_le_ext (e : Ext ℝ) : Ext.ninf ≤ e := bot_le
theorem ext_le_pinf (e : Ext ℝ) : e ≤ Ext.pinf := by
  cases e with
  | none => exact bot_le
  | some e => exact WithBot.coe_le_coe.2 le_top
theorem not_pinf_le (x : ℝ) : ¬ Ext.pinf ≤ Ext.fin x := not_le.2 (extFin_lt_pinf x)
theorem not_le_ninf (x : ℝ) : ¬ Ext.fin x ≤ Ext.ninf := not_le.2 (ninf_lt_extFin x)
theorem not_pinf_le_ninf : ¬ (Ext.pinf : Ext ℝ) ≤ Ext.ninf := not_le.2 (WithBot.bot_lt_coe _)

theorem shiftFn_eq (f : ℝ → ℝ) (shift : ℝ) {scale : ℝ} (y : ℝ) :
    shiftFn f shift scale y = f ((y - shift) / scale) * |1 / scale| := by
  unfold shiftFn
  have : (if scale = 1 then 1 else 1 / scale) = 1 / scale := by
    split_ifs with h
    · rw [h]; simp
    · rfl
  simp only [this]
  rw [mul_comm, mul_one_div]

theorem shift_isDirac (shift scale : ℝ) (s : Seg ℝ) : (s.shiftAndScale shift scale).isDirac = s.isDirac := by
  rcases s with ⟨_ | _ | _, a, b, f⟩ | _ | _ | _ | _ <;> simp only [Seg.shiftAndScale] <;> try split_ifs
  all_goals rfl

theorem shift_inner_pos {scale : ℝ} (h : 0 < scale) (shift : ℝ) {s : Seg ℝ} (y : ℝ) :
    y ∈ (s.shiftAndScale shift scale).inner ↔ (y - shift) / scale ∈ s.inner := by
  have e1 : ∀ a, a * scale + shift < y ↔ a < (y - shift) / scale := fun a => by
    rw [lt_div_iff₀ h]; constructor <;> intro <;> linarith
  have e2 : ∀ a, y < a * scale + shift ↔ (y - shift) / scale < a := fun a => by
    rw [div_lt_iff₀ h]; constructor <;> intro <;> linarith
  rcases s with ⟨_ | _ | _, a, b, f⟩ | _ | _ | _ | _ <;>
    simp only [Seg.shiftAndScale, if_pos h, Seg.inner, Seg.lo, Seg.hi, mem_ofPred_eq, extFin_lt, e1, e2, extFin_lt_pinf,
      ninf_lt_extFin, gt_iff_lt, true_and, and_true]

theorem shift_inner_neg {scale : ℝ} (h : scale < 0) (shift : ℝ) {s : Seg ℝ} (hs : s.isDirac = false) (y : ℝ) :
    y ∈ (s.shiftAndScale shift scale).inner ↔ (y - shift) / scale ∈ s.inner := by
  have h' : ¬ 0 < scale := not_lt.2 h.le
  have e1 : ∀ a, a * scale + shift < y ↔ (y - shift) / scale < a := fun a => by
    rw [div_lt_iff_of_neg h]; constructor <;> intro <;> linarith
  have e2 : ∀ a, y < a * scale + shift ↔ a < (y - shift) / scale := fun a => by
    rw [lt_div_iff_of_neg h]; constructor <;> intro <;> linarith
  rcases s with ⟨_ | _ | _, a, b, f⟩ | _ | _ | _ | _ <;>
    simp only [Seg.shiftAndScale, if_neg h', Seg.inner, Seg.lo, Seg.hi, mem_ofPred_eq, extFin_lt, e1, e2, extFin_lt_pinf,
      ninf_lt_extFin, gt_iff_lt, true_and, and_true] <;>
    exact and_comm

theorem shift_inner {scale : ℝ} (h : scale ≠ 0) (shift : ℝ) {s : Seg ℝ} (hs : s.isDirac = false) (y : ℝ) :
    y ∈ (s.shiftAndScale shift scale).inner ↔ (y - shift) / scale ∈ s.inner := by
  rcases lt_or_gt_of_ne h with h | h
  · exact shift_inner_neg h shift hs y
  · exact shift_inner_pos h shift y

theorem shift_fn {scale shift : ℝ} {s : Seg ℝ} (hs : s.isDirac = false) (y : ℝ) :
    (s.shiftAndScale shift scale).fn y = s.fn ((y - shift) / scale) * |1 / scale| := by
  have key : ∀ (f : ℝ → ℝ) (u v : Seg ℝ), u.fn = shiftFn f shift scale → v.fn = shiftFn f shift scale →
      (if scale > 0 then u else v).fn y = f ((y - shift) / scale) * |1 / scale| := by
    intro f u v hu hv
    split_ifs
    · rw [hu, shiftFn_eq]
    · rw [hv, shiftFn_eq]
  rcases s with ⟨_ | _ | _, a, b, f⟩ | ⟨a, b, c⟩ | ⟨b, f⟩ | ⟨a, f⟩ | _
  · exact key f _ _ rfl rfl
  · exact key f _ _ rfl rfl
  · exact key f _ _ rfl rfl
  · exact key (fun _ => c) _ _ rfl rfl
  · exact key f _ _ rfl rfl
  · exact key f _ _ rfl rfl
  · simp [Seg.isDirac] at hs

theorem shift_image {scale : ℝ} (h : scale ≠ 0) (shift : ℝ) {s : Seg ℝ} (hs : s.isDirac = false) :
    ImageOf s (s.shiftAndScale shift scale) (fun x => x * scale + shift) (fun y => (y - shift) / scale)
      (fun _ => 1 / scale) where
  meas := by fun_prop
  diff := by fun_prop
  deriv y _ := (((hasDerivAt_id' y).sub_const shift).div_const scale).hasDerivWithinAt
  left y hy := ⟨(shift_inner h shift hs y).1 hy, by field_simp; ring⟩
  right x hx := by
    have e : (x * scale + shift - shift) / scale = x := by field_simp; ring
    exact ⟨(shift_inner h shift hs _).2 (by rw [e]; exact hx), e⟩
  fn y _ := shift_fn hs y

/-- what `shiftAndScale` does to one piece -/
theorem shift_piece {scale : ℝ} (h : scale ≠ 0) (shift : ℝ) {s : Seg ℝ} (hw : s.WF) (hd : s.Dens) :
    (s.shiftAndScale shift scale).WF ∧ (s.shiftAndScale shift scale).Dens ∧
      (s.shiftAndScale shift scale).law = s.law.map fun x => x * scale + shift := by
  refine ⟨?_, ?_⟩
  · rcases lt_or_gt_of_ne h with h | h
    · have h' : ¬ 0 < scale := not_lt.2 h.le
      rcases s with ⟨_ | _ | _, a, b, f⟩ | _ | _ | _ | _ <;>
        simp only [Seg.shiftAndScale, gt_iff_lt, if_neg h', Seg.WF] at hw ⊢ <;> nlinarith
    · rcases s with ⟨_ | _ | _, a, b, f⟩ | _ | _ | _ | _ <;>
        simp only [Seg.shiftAndScale, gt_iff_lt, if_pos h, Seg.WF] at hw ⊢ <;> nlinarith
  · cases hs : s.isDirac
    · have ht := shift_isDirac shift scale s
      rw [hs] at ht
      exact ⟨(shift_image h shift hs).dens hs ht hd, (shift_image h shift hs).law hs ht⟩
    · cases s <;> simp [Seg.isDirac] at hs
      rename_i a m
      exact ⟨hd, dirac_law_map (g := fun x => x * scale + shift) (by fun_prop) a m⟩

theorem shift_leftOf_pos {eps scale : ℝ} (h : 0 < scale) (shift : ℝ) {s t : Seg ℝ} (H : s.LeftOf (eps / |scale|) t) :
    (s.shiftAndScale shift scale).LeftOf eps (t.shiftAndScale shift scale) := by
  obtain ⟨h1, h2⟩ := H
  have key : ∀ a b : ℝ, a ≤ b → a * scale + shift ≤ b * scale + shift := fun a b hab => by nlinarith
  constructor
  · rcases s with ⟨_ | _ | _, a, b, f⟩ | _ | _ | _ | _ <;> rcases t with ⟨_ | _ | _, a', b', f'⟩ | _ | _ | _ | _ <;>
      simp only [Seg.shiftAndScale, gt_iff_lt, if_pos h, Seg.lo, Seg.hi, extFin_le, not_pinf_le, not_le_ninf,
        not_pinf_le_ninf] at h1 ⊢ <;> exact key _ _ h1
  · rintro a m a' m' hs ht
    have hs' := shift_isDirac shift scale s
    have ht' := shift_isDirac shift scale t
    rw [hs] at hs'; rw [ht] at ht'
    cases s <;> simp [Seg.isDirac] at hs'
    cases t <;> simp [Seg.isDirac] at ht'
    simp only [Seg.shiftAndScale, Seg.dirac.injEq] at hs ht
    have := h2 _ _ _ _ rfl rfl
    rw [div_lt_iff₀ (abs_pos.2 h.ne')] at this
    rw [← hs.1, ← ht.1, add_sub_add_right_eq_sub, ← sub_mul, abs_mul]
    exact this

theorem shift_leftOf_neg {eps scale : ℝ} (h : scale < 0) (shift : ℝ) {s t : Seg ℝ} (H : s.LeftOf (eps / |scale|) t) :
    (t.shiftAndScale shift scale).LeftOf eps (s.shiftAndScale shift scale) := by
  obtain ⟨h1, h2⟩ := H
  have h' : ¬ 0 < scale := not_lt.2 h.le
  have key : ∀ a b : ℝ, a ≤ b → b * scale + shift ≤ a * scale + shift := fun a b hab => by nlinarith
  constructor
  · rcases s with ⟨_ | _ | _, a, b, f⟩ | _ | _ | _ | _ <;> rcases t with ⟨_ | _ | _, a', b', f'⟩ | _ | _ | _ | _ <;>
      simp only [Seg.shiftAndScale, gt_iff_lt, if_neg h', Seg.lo, Seg.hi, extFin_le, not_pinf_le, not_le_ninf,
        not_pinf_le_ninf] at h1 ⊢ <;> exact key _ _ h1
  · rintro a m a' m' ht hs
    have hs' := shift_isDirac shift scale s
    have ht' := shift_isDirac shift scale t
    rw [hs] at hs'; rw [ht] at ht'
    cases s <;> simp [Seg.isDirac] at hs'
    cases t <;> simp [Seg.isDirac] at ht'
    simp only [Seg.shiftAndScale, Seg.dirac.injEq] at hs ht
    have := h2 _ _ _ _ rfl rfl
    rw [div_lt_iff₀ (abs_pos.2 h.ne)] at this
    rw [← hs.1, ← ht.1, add_sub_add_right_eq_sub, ← sub_mul, abs_mul, abs_sub_comm]
    exact this

theorem shift_compat {eps scale : ℝ} (h : scale ≠ 0) (shift : ℝ) {l : PF ℝ} (hl : PF.WF (eps / |scale|) l) :
    (l.map (Seg.shiftAndScale shift scale)).Pairwise (Seg.Compat eps) := by
  rw [List.pairwise_map]
  refine hl.sorted.imp fun {s t} H => ?_
  rcases lt_or_gt_of_ne h with h | h
  · exact .inl (.inr (shift_leftOf_neg h shift H))
  · exact .inl (.inl (shift_leftOf_pos h shift H))

end Pacal
