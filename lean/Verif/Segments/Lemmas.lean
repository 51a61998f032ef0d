import Verif.Segments.Spec
import Mathlib.Algebra.Order.Group.Abs
import Mathlib.Algebra.BigOperators.Group.List.Basic
import Mathlib.Data.List.Perm.Basic
import Mathlib.Data.List.Sort

/-! Helper lemmas about the segment model. -/

set_option linter.unusedSectionVars false

namespace Pacal

section ext
variable {K : Type*} [LinearOrder K]
@[simp] theorem Ext.fin_le_fin {a b : K} : (Ext.fin a ≤ Ext.fin b) ↔ a ≤ b := by
  simp [Ext.fin]
@[simp] theorem Ext.fin_lt_fin {a b : K} : (Ext.fin a < Ext.fin b) ↔ a < b := by
  simp [Ext.fin]
@[simp] theorem Ext.fin_inj {a b : K} : (Ext.fin a = Ext.fin b) ↔ a = b := by
  simp [Ext.fin]
@[simp] theorem Ext.ninf_le (x : Ext K) : Ext.ninf ≤ x := bot_le
@[simp] theorem Ext.ninf_lt_fin (a : K) : Ext.ninf < Ext.fin a := WithBot.bot_lt_coe _
@[simp] theorem Ext.fin_lt_pinf (a : K) : Ext.fin a < (Ext.pinf : Ext K) := by
  exact WithBot.coe_lt_coe.2 (WithTop.coe_lt_top a)
@[simp] theorem Ext.fin_le_pinf (a : K) : Ext.fin a ≤ (Ext.pinf : Ext K) := (Ext.fin_lt_pinf a).le
@[simp] theorem Ext.le_pinf (x : Ext K) : x ≤ (Ext.pinf : Ext K) := by
  induction x using WithBot.recBotCoe with
  | bot => exact bot_le
  | coe x => exact WithBot.coe_le_coe.2 le_top
@[simp] theorem Ext.not_fin_le_ninf (a : K) : ¬ Ext.fin a ≤ (Ext.ninf : Ext K) :=
  not_le.2 (Ext.ninf_lt_fin a)
@[simp] theorem Ext.not_fin_lt_ninf (a : K) : ¬ Ext.fin a < (Ext.ninf : Ext K) :=
  not_lt.2 (Ext.ninf_le _)
@[simp] theorem Ext.not_pinf_le_fin (a : K) : ¬ (Ext.pinf : Ext K) ≤ Ext.fin a :=
  not_le.2 (Ext.fin_lt_pinf a)
@[simp] theorem Ext.not_pinf_lt (a : Ext K) : ¬ (Ext.pinf : Ext K) < a :=
  not_lt.2 (Ext.le_pinf a)
@[simp] theorem Ext.not_lt_ninf (a : Ext K) : ¬ a < (Ext.ninf : Ext K) :=
  not_lt.2 (Ext.ninf_le a)
@[simp] theorem Ext.ninf_lt_pinf : (Ext.ninf : Ext K) < Ext.pinf := WithBot.bot_lt_coe _
@[simp] theorem Ext.fin_ne_ninf (a : K) : Ext.fin a ≠ Ext.ninf := (Ext.ninf_lt_fin a).ne'
@[simp] theorem Ext.fin_ne_pinf (a : K) : Ext.fin a ≠ Ext.pinf := (Ext.fin_lt_pinf a).ne
@[simp] theorem Ext.pinf_ne_fin (a : K) : (Ext.pinf : Ext K) ≠ Ext.fin a := (Ext.fin_lt_pinf a).ne'
@[simp] theorem Ext.ninf_ne_fin (a : K) : (Ext.ninf : Ext K) ≠ Ext.fin a := (Ext.ninf_lt_fin a).ne
end ext

variable {K : Type*} [Field K] [LinearOrder K]

theorem Seg.lo_le_hi {s : Seg K} (h : s.WF) : s.lo ≤ s.hi := by
  cases s <;> simp_all [Seg.lo, Seg.hi, Seg.WF, le_of_lt]

theorem Seg.lo_lt_hi {s : Seg K} (h : s.WF) (hd : s.isDirac = false) : s.lo < s.hi := by
  cases s <;> simp_all [Seg.lo, Seg.hi, Seg.WF, Seg.isDirac]

theorem Seg.lt_iff {s t : Seg K} : s.lt t = true ↔
    (s.lo ≤ t.lo ∧ s.hi < t.hi) ∨ (s.lo < t.lo ∧ s.hi ≤ t.hi) := by
  simp [Seg.lt]

theorem Seg.gt_eq (s t : Seg K) : s.gt t = t.lt s := rfl

theorem Seg.lt_trans {s t u : Seg K} (h₁ : s.lt t = true) (h₂ : t.lt u = true) : s.lt u = true := by
  rw [Seg.lt_iff] at *
  rcases h₁ with ⟨a, b⟩ | ⟨a, b⟩ <;> rcases h₂ with ⟨c, d⟩ | ⟨c, d⟩
  · exact .inl ⟨a.trans c, b.trans d⟩
  · exact .inl ⟨a.trans c.le, b.trans_le d⟩
  · exact .inl ⟨a.le.trans c, b.trans_lt d⟩
  · exact .inr ⟨a.trans c, b.trans d⟩

theorem Seg.lt_irrefl (s : Seg K) : s.lt s = false := by
  by_contra h
  have h : s.lt s = true := by simpa using h
  rw [Seg.lt_iff] at h
  rcases h with ⟨_, b⟩ | ⟨b, _⟩ <;> exact absurd b (_root_.lt_irrefl _)

theorem Seg.lt_asymm {s t : Seg K} (h : s.lt t = true) : t.lt s = false := by
  by_contra h'
  have h' : t.lt s = true := by simpa using h'
  have := Seg.lt_trans h h'
  rw [Seg.lt_irrefl] at this
  exact absurd this (by simp)

theorem Seg.LeftOf.lt [IsStrictOrderedRing K] {eps : K} (he : 0 ≤ eps) {s t : Seg K} (hs : s.WF)
    (ht : t.WF) (h : s.LeftOf eps t) : s.lt t = true := by
  rw [Seg.lt_iff]
  obtain ⟨h₁, h₂⟩ := h
  have hs' := Seg.lo_le_hi hs
  have ht' := Seg.lo_le_hi ht
  by_cases hds : s.isDirac = true
  · by_cases hdt : t.isDirac = true
    · cases s <;> simp [Seg.isDirac] at hds
      cases t <;> simp [Seg.isDirac] at hdt
      rename_i a m a' m'
      have := h₂ a m a' m' rfl rfl
      simp only [Seg.lo, Seg.hi, Ext.fin_le_fin, Ext.fin_lt_fin] at *
      left
      refine ⟨h₁, lt_of_le_of_ne h₁ ?_⟩
      rintro rfl
      simp at this
      exact absurd this (not_lt.2 he)
    · have := Seg.lo_lt_hi ht (by simpa using hdt)
      exact .inl ⟨hs'.trans h₁, h₁.trans_lt this⟩
  · have := Seg.lo_lt_hi hs (by simpa using hds)
    exact .inr ⟨this.trans_le h₁, h₁.trans ht'⟩

theorem mergeDirac_none {eps a m : K} {l : PF K}
    (h : ∀ a' m', Seg.dirac a' m' ∈ l → eps < |a - a'|) : PF.mergeDirac eps a m l = none := by
  induction l with
  | nil => rfl
  | cons s l ih =>
    have ih := ih (fun a' m' hm => h a' m' (List.mem_cons_of_mem _ hm))
    cases s <;> simp [PF.mergeDirac, ih]
    rename_i a' m'
    exact h a' m' (by simp)

/-- Inserting a piece between the pieces left of it and the pieces right of it. -/
theorem addSegment_split [IsStrictOrderedRing K] {eps : K} (he : 0 ≤ eps) {l₁ l₂ : PF K}
    {s : Seg K} (hwf : ∀ t ∈ l₁ ++ l₂, t.WF) (hs : s.WF) (h₁ : ∀ t ∈ l₁, t.LeftOf eps s)
    (h₂ : ∀ t ∈ l₂, s.LeftOf eps t) :
    PF.addSegment eps (l₁ ++ l₂) s = some (l₁ ++ s :: l₂) := by
  have k₁ : ∀ t ∈ l₁, t.lt s = true := fun t ht =>
    (h₁ t ht).lt he (hwf t (by simp [ht])) hs
  have k₂ : ∀ t ∈ l₂, s.lt t = true := fun t ht =>
    (h₂ t ht).lt he hs (hwf t (by simp [ht]))
  have hb : bisectLeft Seg.lt (l₁ ++ l₂) s = l₁.length :=
    bisectBy_append _ _ _ k₁ (fun t ht => Seg.lt_asymm (k₂ t ht))
  have hi : insort Seg.lt (l₁ ++ l₂) s = l₁ ++ s :: l₂ := by
    unfold insort
    rw [bisectBy_append _ _ _ (fun t ht => by simp [Seg.lt_asymm (k₁ t ht)])
      (fun t ht => by simp [k₂ t ht])]
    simp
  have hins : PF.insertSeg (l₁ ++ l₂) s = some (l₁ ++ s :: l₂) := by
    unfold PF.insertSeg
    rw [hb, hi]
    cases l₂ with
    | nil => simp
    | cons t l₂ =>
      have : t.gt s = true := by rw [Seg.gt_eq]; exact k₂ t (by simp)
      simp [this]
  unfold PF.addSegment
  split
  · rename_i a m
    rw [mergeDirac_none, hins]
    intro a' m' hm
    rcases List.mem_append.1 hm with hm | hm
    · rw [abs_sub_comm]; exact (h₁ _ hm).2 a' m' a m rfl rfl
    · exact (h₂ _ hm).2 a m a' m' rfl rfl
  · exact hins

/-- A piece disjoint from all pieces of a well-formed function splits it in two. -/
theorem exists_split [IsStrictOrderedRing K] {eps : K} (he : 0 ≤ eps) {s : Seg K} (hs : s.WF) :
    ∀ {l : PF K}, PF.WF eps l → (∀ t ∈ l, Seg.Disjoint eps s t) →
      ∃ l₁ l₂, l = l₁ ++ l₂ ∧ (∀ t ∈ l₁, t.LeftOf eps s) ∧ (∀ t ∈ l₂, s.LeftOf eps t) := by
  intro l
  induction l with
  | nil => intro _ _; exact ⟨[], [], rfl, by simp, by simp⟩
  | cons t l ih =>
    intro hwf hd
    have hwf' : PF.WF eps l := ⟨fun u hu => hwf.seg u (by simp [hu]), (List.pairwise_cons.1 hwf.sorted).2⟩
    rcases hd t (by simp) with h | h
    · refine ⟨[], t :: l, rfl, by simp, ?_⟩
      intro u hu
      rcases List.mem_cons.1 hu with rfl | hu
      · exact h
      · rcases hd u (by simp [hu]) with h' | h'
        · exact h'
        · exfalso
          have wt := hwf.seg t (by simp)
          have wu := hwf.seg u (by simp [hu])
          have l₁ := h.lt he hs wt
          have l₂ := ((List.pairwise_cons.1 hwf.sorted).1 u hu).lt he wt wu
          have l₃ := h'.lt he wu hs
          have := Seg.lt_trans (Seg.lt_trans l₁ l₂) l₃
          rw [Seg.lt_irrefl] at this
          exact absurd this (by simp)
    · obtain ⟨l₁, l₂, rfl, h₁, h₂⟩ := ih hwf' (fun u hu => hd u (by simp [hu]))
      refine ⟨t :: l₁, l₂, rfl, ?_, h₂⟩
      intro u hu
      rcases List.mem_cons.1 hu with rfl | hu
      · exact h
      · exact h₁ u hu

theorem addSegment_wf [IsStrictOrderedRing K] {eps : K} (he : 0 ≤ eps) {s : Seg K} (hs : s.WF)
    {l : PF K} (hl : PF.WF eps l) (hd : ∀ t ∈ l, Seg.Disjoint eps s t) :
    ∃ r, PF.addSegment eps l s = some r ∧ r.Perm (s :: l) ∧ PF.WF eps r := by
  obtain ⟨l₁, l₂, rfl, h₁, h₂⟩ := exists_split he hs hl hd
  refine ⟨l₁ ++ s :: l₂, addSegment_split he hl.seg hs h₁ h₂, List.perm_middle, ?_, ?_⟩
  · intro t ht
    rcases List.mem_append.1 ht with ht | ht
    · exact hl.seg t (by simp [ht])
    · rcases List.mem_cons.1 ht with rfl | ht
      · exact hs
      · exact hl.seg t (by simp [ht])
  · have := List.pairwise_append.1 hl.sorted
    refine List.pairwise_append.2 ⟨this.1, List.pairwise_cons.2 ⟨h₂, this.2.1⟩, ?_⟩
    intro a ha b hb
    rcases List.mem_cons.1 hb with rfl | hb
    · exact h₁ a ha
    · exact this.2.2 a ha b hb

theorem Seg.Disjoint.symm {eps : K} {s t : Seg K} (h : Seg.Disjoint eps s t) :
    Seg.Disjoint eps t s := Or.symm h

theorem addAll_wf [IsStrictOrderedRing K] {eps : K} (he : 0 ≤ eps) :
    ∀ (ss : List (Seg K)) (l : PF K), PF.WF eps l → (∀ s ∈ ss, s.WF) →
      ss.Pairwise (Seg.Disjoint eps) → (∀ s ∈ ss, ∀ t ∈ l, Seg.Disjoint eps s t) →
      ∃ r, PF.addAll eps l ss = some r ∧ r.Perm (ss ++ l) ∧ PF.WF eps r := by
  intro ss
  induction ss with
  | nil => intro l hl _ _ _; exact ⟨l, rfl, List.Perm.refl _, hl⟩
  | cons s ss ih =>
    intro l hl hw hp hd
    obtain ⟨r, hr, hperm, hwf⟩ := addSegment_wf he (hw s (by simp)) hl (hd s (by simp))
    rw [List.pairwise_cons] at hp
    obtain ⟨r', hr', hperm', hwf'⟩ := ih r hwf (fun t ht => hw t (by simp [ht])) hp.2 (by
      intro u hu t ht
      rcases List.mem_cons.1 (hperm.mem_iff.1 ht) with rfl | ht
      · exact (hp.1 u hu).symm
      · exact hd u (by simp [hu]) t ht)
    refine ⟨r', by simp [PF.addAll, hr, hr'], ?_, hwf'⟩
    refine hperm'.trans ?_
    refine (List.Perm.append_left ss hperm).trans ?_
    exact List.perm_middle

theorem wf_perm_unique [IsStrictOrderedRing K] {eps : K} (he : 0 ≤ eps) {l l' : PF K}
    (h : PF.WF eps l) (h' : PF.WF eps l') (hp : l.Perm l') : l = l' := by
  refine List.Perm.eq_of_pairwise (le := fun s t => s.lt t = true) ?_ ?_ ?_ hp
  · intro a b _ _ hab hba
    rw [Seg.lt_asymm hab] at hba
    exact absurd hba (by simp)
  · exact h.sorted.imp_of_mem (fun ha hb hab => hab.lt he (h.seg _ ha) (h.seg _ hb))
  · exact h'.sorted.imp_of_mem (fun ha hb hab => hab.lt he (h'.seg _ ha) (h'.seg _ hb))

section uniq
variable {α : Type*} [LinearOrder α]

theorem mem_insUniq {x y : α} {l : List α} : y ∈ PF.insUniq x l ↔ y = x ∨ y ∈ l := by
  induction l with
  | nil => simp [PF.insUniq]
  | cons z l ih =>
    simp only [PF.insUniq]
    split
    · simp
    · split
      · rename_i _ h; subst h; simp
      · simp only [List.mem_cons, ih]; tauto

theorem insUniq_sorted {x : α} {l : List α} (h : l.Pairwise (· < ·)) :
    (PF.insUniq x l).Pairwise (· < ·) := by
  induction l with
  | nil => simp [PF.insUniq]
  | cons z l ih =>
    rw [List.pairwise_cons] at h
    simp only [PF.insUniq]
    split
    · rename_i hx
      refine List.pairwise_cons.2 ⟨?_, List.pairwise_cons.2 h⟩
      intro a ha
      rcases List.mem_cons.1 ha with rfl | ha
      · exact hx
      · exact hx.trans (h.1 a ha)
    · split
      · exact List.pairwise_cons.2 h
      · rename_i h₁ h₂
        refine List.pairwise_cons.2 ⟨?_, ih h.2⟩
        intro a ha
        rcases mem_insUniq.1 ha with rfl | ha
        · exact lt_of_le_of_ne (not_lt.1 h₁) (Ne.symm h₂)
        · exact h.1 a ha

theorem mem_npUnique {y : α} {l : List α} : y ∈ PF.npUnique l ↔ y ∈ l := by
  induction l with
  | nil => simp [PF.npUnique]
  | cons z l ih =>
    have : PF.npUnique (z :: l) = PF.insUniq z (PF.npUnique l) := rfl
    rw [this, mem_insUniq, ih]; simp

theorem npUnique_sorted (l : List α) : (PF.npUnique l).Pairwise (· < ·) := by
  induction l with
  | nil => simp [PF.npUnique]
  | cons z l ih => exact insUniq_sorted ih

end uniq

end Pacal
