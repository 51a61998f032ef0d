import Verif.Conv.SpecQuad
import Verif.Conv.SumLemmas
import Mathlib.Data.List.Forall2

/-! Assembling pieces with close functions gives functions with close values (used for C92). -/

namespace Pacal
namespace Conv
open MeasureTheory Set Transform Breaks

variable {E : ℝ → ℝ} {s s' t t' : Seg ℝ} {l l' : PF ℝ}

theorem _root_.Pacal.Near.lo (h : Near E s s') : s'.lo = s.lo := by cases h <;> rfl
theorem _root_.Pacal.Near.hi (h : Near E s s') : s'.hi = s.hi := by cases h <;> rfl

theorem near_lt (h : Near E s s') (h' : Near E t t') : s'.lt t' = s.lt t := by rw [Seg.lt, Seg.lt, h.lo, h.hi, h'.lo, h'.hi]
theorem near_gt (h : Near E s s') (h' : Near E t t') : s'.gt t' = s.gt t := by rw [Seg.gt, Seg.gt, h.lo, h.hi, h'.lo, h'.hi]

theorem bisectGo_congr {p p' : Seg ℝ → Bool} (h : List.Forall₂ (fun s s' => p' s' = p s) l l') :
    ∀ fuel lo hi, bisectGo p' l' fuel lo hi = bisectGo p l fuel lo hi := by
  intro fuel
  induction fuel with
  | zero => intro lo hi; rfl
  | succ n ih =>
    intro lo hi
    have hl := h.length_eq
    simp only [bisectGo, ih]
    split_ifs
    · rcases hi' : l[(lo + hi) / 2]? with _ | s
      · have : l'[(lo + hi) / 2]? = none := by
          rw [List.getElem?_eq_none_iff] at hi' ⊢; omega
        rw [this]
      · obtain ⟨hlt, e⟩ := List.getElem?_eq_some_iff.1 hi'
        have hlt' : (lo + hi) / 2 < l'.length := by omega
        have := (List.forall₂_iff_get.1 h).2 _ hlt hlt'
        rw [List.getElem?_eq_getElem hlt']
        simp only [List.get_eq_getElem] at this
        simp only [this, e]
    · rfl

theorem bisectBy_congr {p p' : Seg ℝ → Bool} (h : List.Forall₂ (fun s s' => p' s' = p s) l l') : bisectBy p' l' = bisectBy p l := by
  rw [bisectBy, bisectBy, bisectGo_congr h, h.length_eq]

/-- two results of a computation that may fail -/
def NearO (E : ℝ → ℝ) : Option (PF ℝ) → Option (PF ℝ) → Prop
  | some l, some l' => List.Forall₂ (Near E) l l'
  | none, none => True
  | _, _ => False

theorem near_insort (hl : List.Forall₂ (Near E) l l') (h : Near E s s') : List.Forall₂ (Near E) (insort Seg.lt l s) (insort Seg.lt l' s') := by
  have e : bisectBy (fun y => !(Seg.lt s' y)) l' = bisectBy (fun y => !(Seg.lt s y)) l :=
    bisectBy_congr (hl.imp fun _ _ h' => by rw [near_lt h h'])
  rw [insort, insort, e]
  exact List.rel_append (List.forall₂_take _ hl) (.cons h (List.forall₂_drop _ hl))

theorem near_merge (a m : ℝ) (eps : ℝ) (hl : List.Forall₂ (Near E) l l') : NearO E (PF.mergeDirac eps a m l) (PF.mergeDirac eps a m l') := by
  induction hl with
  | nil => trivial
  | cons h hl ih =>
    cases h with
    | dirac b n =>
      unfold PF.mergeDirac
      split_ifs
      · exact .cons (.dirac _ _) hl
      · revert ih
        generalize PF.mergeDirac eps a m _ = o
        generalize PF.mergeDirac eps a m _ = o'
        cases o <;> cases o' <;> intro ih <;> first | exact ih | exact .cons (.dirac _ _) ih
    | fin p b c f f' h =>
      unfold PF.mergeDirac
      revert ih
      generalize PF.mergeDirac eps a m _ = o
      generalize PF.mergeDirac eps a m _ = o'
      cases o <;> cases o' <;> intro ih <;> first | exact ih | exact .cons (.fin _ _ _ _ _ h) ih
    | minf b f f' h =>
      unfold PF.mergeDirac
      revert ih
      generalize PF.mergeDirac eps a m _ = o
      generalize PF.mergeDirac eps a m _ = o'
      cases o <;> cases o' <;> intro ih <;> first | exact ih | exact .cons (.minf _ _ _ h) ih
    | pinf b f f' h =>
      unfold PF.mergeDirac
      revert ih
      generalize PF.mergeDirac eps a m _ = o
      generalize PF.mergeDirac eps a m _ = o'
      cases o <;> cases o' <;> intro ih <;> first | exact ih | exact .cons (.pinf _ _ _ h) ih

theorem near_insert (hl : List.Forall₂ (Near E) l l') (h : Near E s s') : NearO E (PF.insertSeg l s) (PF.insertSeg l' s') := by
  have e : bisectLeft Seg.lt l' s' = bisectLeft Seg.lt l s := bisectBy_congr (hl.imp fun _ _ h' => near_lt h' h)
  unfold PF.insertSeg
  rw [e]
  rcases hi' : l[bisectLeft Seg.lt l s]? with _ | t
  · have : l'[bisectLeft Seg.lt l s]? = none := by
      have := hl.length_eq
      rw [List.getElem?_eq_none_iff] at hi' ⊢; omega
    rw [this]
    exact near_insort hl h
  · obtain ⟨hlt, et⟩ := List.getElem?_eq_some_iff.1 hi'
    have hlt' : bisectLeft Seg.lt l s < l'.length := by have := hl.length_eq; omega
    have ht := (List.forall₂_iff_get.1 hl).2 _ hlt hlt'
    simp only [List.get_eq_getElem] at ht
    rw [List.getElem?_eq_getElem hlt']
    rw [et] at ht
    revert ht
    generalize l'[bisectLeft Seg.lt l s] = t'
    intro ht
    simp only [near_gt ht h, near_gt h ht]
    by_cases hc : (t.gt s || s.gt t) = true
    · rw [if_pos hc, if_pos hc]
      exact near_insort hl h
    · rw [if_neg hc, if_neg hc]
      cases h with
      | dirac a m =>
        cases ht with
        | dirac b n =>
          dsimp only
          split_ifs
          · exact near_insort hl (.dirac _ _)
          · trivial
        | fin p b c f f' hf =>
          have hd : ∀ z k, Near E (.dirac z k) (.dirac z k) := fun z k => .dirac z k
          simp only [near_gt (.fin p b c f f' hf) (hd b m), near_gt (hd b m) (.fin p b c f f' hf)]
          split_ifs
          · exact near_insort hl (.dirac _ _)
          · trivial
        | minf b f f' hf => trivial
        | pinf b f f' hf =>
          have hd : ∀ z k, Near E (.dirac z k) (.dirac z k) := fun z k => .dirac z k
          simp only [near_gt (.pinf b f f' hf) (hd b m), near_gt (hd b m) (.pinf b f f' hf)]
          split_ifs
          · exact near_insort hl (.dirac _ _)
          · trivial
      | fin => trivial
      | minf => trivial
      | pinf => trivial

theorem near_addSegment (eps : ℝ) (hl : List.Forall₂ (Near E) l l') (h : Near E s s') :
    NearO E (PF.addSegment eps l s) (PF.addSegment eps l' s') := by
  cases h with
  | dirac a m =>
    have h := near_merge a m eps hl
    rcases e : PF.mergeDirac eps a m l with _ | o <;> rcases e' : PF.mergeDirac eps a m l' with _ | o' <;> rw [e, e'] at h <;>
      simp only [PF.addSegment, e, e']
    · exact near_insert hl (.dirac a m)
    · exact h.elim
    · exact h.elim
    · exact h
  | fin p b c f f' hf => exact near_insert hl (.fin p b c f f' hf)
  | minf b f f' hf => exact near_insert hl (.minf b f f' hf)
  | pinf b f f' hf => exact near_insert hl (.pinf b f f' hf)

theorem near_addAll (eps : ℝ) {ss ss' : List (Seg ℝ)} (h : List.Forall₂ (Near E) ss ss') :
    ∀ {l l' : PF ℝ}, List.Forall₂ (Near E) l l' → NearO E (PF.addAll eps l ss) (PF.addAll eps l' ss') := by
  induction h with
  | nil => intro l l' hl; exact hl
  | cons h hs ih =>
    intro l l' hl
    unfold PF.addAll
    have := near_addSegment eps hl h
    revert this
    rcases PF.addSegment eps l _ with _ | o <;> rcases PF.addSegment eps l' _ with _ | o' <;> intro h
    · trivial
    · exact h.elim
    · exact h.elim
    · exact ih h

theorem NearO.some {o : Option (PF ℝ)} {l : PF ℝ} (h : NearO E (some l) o) : ∃ l', o = some l' ∧ List.Forall₂ (Near E) l l' := by
  rcases o with _ | l'
  · exact h.elim
  · exact ⟨l', rfl, h⟩

end Conv
end Pacal
