import Verif.Direct.Lem
import Mathlib.Data.List.Forall2

/-! Arrays are evaluated entry by entry. -/

namespace Pacal.Direct
open Set Real

theorem broadcast_eq {α β γ : Type} (f : α → β → γ) {xs : List α} {ys : List β} (h : xs.length = ys.length) :
    broadcast f xs ys = .ok (List.zipWith f xs ys) := by
  unfold broadcast
  split
  · match ys, h with
    | [b], _ => rfl
  · match xs, h with
    | [a], _ => rfl
  · rw [if_pos h]

theorem forall_zip {α β γ δ : Type} {R : α → β → Prop} {S : α → γ → Prop} {T : α → δ → Prop} {f : β → γ → δ}
    (hf : ∀ x y z, R x y → S x z → T x (f y z)) {xs : List α} {ys : List β} (h1 : List.Forall₂ R xs ys) :
    ∀ {zs : List γ}, List.Forall₂ S xs zs → List.Forall₂ T xs (List.zipWith f ys zs) := by
  induction h1 with
  | nil => intro zs h; cases h; exact .nil
  | cons h _ ih => intro zs h'; cases h' with
    | cons h2 h3 => exact .cons (hf _ _ _ h h2) (ih h3)

variable {α : Type} {p : α → Bool} {Q : α → Option ℝ → Prop}

/-- an entry of the result of `y[mask] = v` -/
def Entry (p : α → Bool) (Q : α → Option ℝ → Prop) (x : α) (y : Option ℝ) : Prop :=
  if p x then Q x y else y = some 0

theorem fill_many : ∀ {xs : List α} {v : List (Option ℝ)}, List.Forall₂ Q (xs.filter p) v →
    List.Forall₂ (Entry p Q) xs (assign.fill p xs v false)
  | [], _, _ => .nil
  | x :: xs, v, h => by
    by_cases hx : p x
    · rw [List.filter_cons_of_pos hx] at h
      cases h with
      | cons h1 h2 =>
        simp only [assign.fill, if_pos hx]
        exact .cons (by rw [Entry, if_pos hx]; exact h1) (fill_many h2)
    · rw [List.filter_cons_of_neg hx] at h
      simp only [assign.fill, if_neg hx]
      exact .cons (by rw [Entry, if_neg hx]) (fill_many h)

theorem fill_one {w : Option ℝ} : ∀ {xs : List α}, (∀ x ∈ xs, p x → Q x w) →
    List.Forall₂ (Entry p Q) xs (assign.fill p xs [w] true)
  | [], _ => .nil
  | x :: xs, h => by
    have ih := fill_one (xs := xs) fun y hy => h y (List.mem_cons_of_mem _ hy)
    by_cases hx : p x
    · simp only [assign.fill, if_pos hx]
      exact .cons (by rw [Entry, if_pos hx]; exact h x List.mem_cons_self hx) ih
    · simp only [assign.fill, if_neg hx]
      exact .cons (by rw [Entry, if_neg hx]) ih

theorem assign_spec {xs : List α} {v : List (Option ℝ)} (h : List.Forall₂ Q (xs.filter p) v) :
    ∃ r, assign p xs v = .ok r ∧ List.Forall₂ (Entry p Q) xs r := by
  have hl := h.length_eq
  refine ⟨_, by unfold assign; rw [if_pos (Or.inl hl.symm)], ?_⟩
  by_cases h1 : v.length = 1
  · obtain ⟨w, rfl⟩ := List.length_eq_one_iff.1 h1
    refine fill_one fun x hx hp => ?_
    obtain ⟨x0, h0⟩ := List.length_eq_one_iff.1 (hl.trans h1)
    have : x ∈ xs.filter p := List.mem_filter.2 ⟨hx, hp⟩
    rw [h0] at this h
    cases h with
    | cons h2 _ => rw [List.mem_singleton.1 this]; exact h2
  · rw [show (v.length == 1) = false by simpa using h1]
    exact fill_many h

/-- the answer for an entry: at a number the one for the number, at nan one that is nan or 0 -/
def EntryOf (e : Expr) (x y : Option ℝ) : Prop :=
  match x with
  | some v => e.pdf ⟨some v, true⟩ = .ok y
  | none => y = none ∨ y = some 0

theorem arr_all (e : Expr) (hp : e.Pointwise) (hs : e.Safe) (hq : e.Quiet) (xs : List (Option ℝ)) :
    ∃ ys, e.pdfArr xs = .ok ys ∧ List.Forall₂ (EntryOf e) xs ys := by
  induction e generalizing xs with
  | base p =>
    refine ⟨_, rfl, ?_⟩
    rw [List.forall₂_map_right_iff, List.forall₂_same]
    intro x _
    cases x with
    | none => exact hq
    | some v => rfl
  | shifted s c d ih =>
    obtain ⟨ys, h1, h2⟩ := ih hp hs hq (xs.map fun x => x.map fun x => (x - s) * oneScale c)
    refine ⟨_, by simp only [Expr.pdfArr]; rw [h1, ok_bind]; rfl, ?_⟩
    rw [List.forall₂_map_right_iff]
    rw [List.forall₂_map_left_iff] at h2
    refine h2.imp fun x y h => ?_
    cases x with
    | none => rcases h with rfl | rfl <;> simp [EntryOf]
    | some v =>
      have h : d.pdf ⟨some ((v - s) * oneScale c), true⟩ = .ok y := h
      show (Expr.shifted s c d).pdf _ = _
      simp only [Expr.pdf, Option.map_some]
      rw [h]; rfl
  | func F d ih =>
    obtain ⟨ys, h1, h2⟩ := ih hp hs.2 hq (xs.map F.invArr)
    rw [List.forall₂_map_left_iff] at h2
    have hl : ys.length = (xs.map F.invDerivArr).length := by rw [List.length_map, h2.length_eq]
    refine ⟨_, by simp only [Expr.pdfArr]; rw [h1, ok_bind, broadcast_eq _ hl]; rfl, ?_⟩
    rw [List.forall₂_map_right_iff]
    refine forall_zip (R := fun x y => EntryOf d (F.invArr x) y) (S := fun x z => z = F.invDerivArr x) ?_ h2
      (by rw [List.forall₂_map_right_iff, List.forall₂_same]; exact fun _ _ => rfl)
    rintro x y _ h rfl
    cases x with
    | none =>
      refine Or.inr ?_
      rcases F <;> cases y <;> simp [both, Func.invDerivArr]
    | some v =>
      obtain ⟨w, hw⟩ := (answers (.func F d) hs).1 (some v)
      obtain ⟨u, hu⟩ : ∃ u, F.invDeriv v true = .ok u := by
        rcases F <;> simp only [Func.invDeriv] <;> first | exact ⟨_, rfl⟩ | (split_ifs <;> exact ⟨_, rfl⟩)
      have e1 : F.invDerivArr (some v) = u := by simp only [Func.invDerivArr, hu]
      show (Expr.func F d).pdf _ = _
      simp only [Expr.pdf]
      have key : ∀ t, d.pdf (F.inv v) = .ok t →
          (both (fun y v => y * |v|) t u).getD 0 = (both (fun y v => y * |v|) y u).getD 0 →
          (do
            let y ← d.pdf (F.inv v)
            let v ← F.invDeriv v true
            pure (some ((both (fun y v => y * |v|) y v).getD 0)) : Except PyErr (Option ℝ)) =
          .ok (some ((both (fun y v => y * |v|) y (F.invDerivArr (some v))).getD 0)) := by
        intro t ht hz
        rw [ht, ok_bind, hu, ok_bind, e1, ← hz]; rfl
      have hinv : F.invArr (some v) = (F.inv v).val := rfl
      by_cases hnp : (F.inv v).np = true
      · have hF : F.inv v = ⟨(F.inv v).val, true⟩ := by rw [← hnp]
        cases hv : (F.inv v).val with
        | some a =>
          rw [hinv, hv] at h
          have h : d.pdf ⟨some a, true⟩ = .ok y := h
          exact key y (by rw [hF, hv]; exact h) rfl
        | none =>
          rw [hinv, hv] at h
          rcases silent d hs.2 hq with hsil | hsil
          · refine key none (by rw [hF, hv]; exact hsil) ?_
            rcases h with rfl | rfl <;> cases u <;> simp [both]
          · refine key (some 0) (by rw [hF, hv]; exact hsil) ?_
            rcases h with rfl | rfl <;> cases u <;> simp [both]
      · have hb : (F = .atan ∨ F = .tanh ∨ F = .sigmoid) ∧ u = some 0 := by
          rcases F
          · exact (hnp rfl).elim
          · exact (hnp rfl).elim
          · refine ⟨by simp, ?_⟩
            have h0 : v ≤ -π / 2 ∨ v ≥ π / 2 := by
              by_contra hc; exact hnp (by simp only [Func.inv, decide_eq_false hc, Bool.not_false])
            simp only [Func.invDeriv, atanInvDeriv, if_pos h0] at hu
            exact (Except.ok.inj hu).symm
          · refine ⟨by simp, ?_⟩
            have h0 : v ≤ -1 ∨ v ≥ 1 := by
              by_contra hc; exact hnp (by simp only [Func.inv, decide_eq_false hc, Bool.not_false])
            simp only [Func.invDeriv, tanhInvDeriv, if_pos h0] at hu
            exact (Except.ok.inj hu).symm
          · refine ⟨by simp, ?_⟩
            have h0 : v ≤ -1 ∨ v ≥ 1 := by
              by_contra hc; exact hnp (by simp only [Func.inv, if_neg hc])
            have h1 : v ≠ 0 := by rintro rfl; rcases h0 with h | h <;> norm_num at h
            simp only [Func.invDeriv, sigmoidInvDeriv, if_neg h1, if_pos h0] at hu
            exact (Except.ok.inj hu).symm
          · exact (hnp rfl).elim
        obtain ⟨hF, rfl⟩ := hb
        obtain ⟨t, ht⟩ := (answers d hs.2).2 (hs.1 hF) (F.inv v).val (F.inv v).np
        refine key t ht ?_
        cases t <;> cases y <;> simp [both]
  | inv d ih => exact hp.elim
  | square d ih => exact hp.elim
  | abs d ih =>
    obtain ⟨p, hpd⟩ : ∃ p : Option ℝ → Bool, p = fun x => decide (∃ v, x = some v ∧ 0 ≤ v) := ⟨_, rfl⟩
    obtain ⟨ys, h1, h2⟩ := ih hp hs hq ((xs.filter p).map fun x => x.map fun x => -x)
    obtain ⟨zs, h3, h4⟩ := ih hp hs hq (xs.filter p)
    rw [List.forall₂_map_left_iff] at h2
    have hl : ys.length = zs.length := h2.length_eq.symm.trans h4.length_eq
    have h5 : List.Forall₂ (fun x y => p x → (Expr.abs d).pdf ⟨x, true⟩ = .ok y) (xs.filter p)
        (List.zipWith (both fun y z => y + z) ys zs) := by
      refine forall_zip ?_ h2 h4
      intro x y z hy hz hx
      rw [hpd] at hx
      obtain ⟨v, rfl, hv⟩ := of_decide_eq_true hx
      have hy : d.pdf ⟨some (-v), true⟩ = .ok y := hy
      have hz : d.pdf ⟨some v, true⟩ = .ok z := hz
      have hn : ¬ ∃ w, some v = some w ∧ w < 0 := by
        rintro ⟨w, hw, h⟩; cases hw; exact absurd hv (not_le.2 h)
      simp only [Expr.pdf, if_neg hn, Option.map_some]
      rw [hy, hz]; rfl
    obtain ⟨r, h6, h7⟩ := assign_spec h5
    refine ⟨r, ?_, ?_⟩
    · simp only [Expr.pdfArr]
      rw [← hpd, h1, ok_bind, h3, ok_bind, broadcast_eq _ hl, ok_bind, h6]
    · refine h7.imp fun x y h => ?_
      by_cases hx : p x
      · rw [Entry, if_pos hx] at h
        have h := h hx
        rw [hpd] at hx
        obtain ⟨v, rfl, hv⟩ := of_decide_eq_true hx
        exact h
      · rw [Entry, if_neg hx] at h
        rw [h]
        cases x with
        | none => exact Or.inr rfl
        | some v =>
          have hv : v < 0 := by
            by_contra hc
            exact hx (by rw [hpd]; exact decide_eq_true ⟨v, rfl, not_lt.1 hc⟩)
          show (Expr.abs d).pdf _ = _
          simp only [Expr.pdf, if_pos (⟨v, rfl, hv⟩ : ∃ w, some v = some w ∧ w < 0)]
          rfl

end Pacal.Direct
