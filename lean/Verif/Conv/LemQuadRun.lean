import Verif.Conv.LemQuad

/-! The pieces of a result and its values, when the contributions of the pairs are computed with an error (used for C92). -/

namespace Pacal
namespace Conv
open MeasureTheory Set Transform Breaks

variable {E : ℝ → ℝ} {s s' : Seg ℝ} {l l' : PF ℝ}

theorem _root_.Pacal.Near.isMInf (h : Near E s s') : isMInf s' = isMInf s := by cases h <;> rfl
theorem _root_.Pacal.Near.isPInf (h : Near E s s') : isPInf s' = isPInf s := by cases h <;> rfl
theorem _root_.Pacal.Near.isDirac (h : Near E s s') : s'.isDirac = s.isDirac := by cases h <;> rfl

theorem near_pieceOf {pole : ℝ → ℝ → Pole} {F F' : ℝ → ℝ → ℝ} {a b : Ext ℝ}
    (hF : ∀ᵐ x, x ∈ interE a b → |F' (mid a b) x - F (mid a b) x| ≤ E x) :
    List.Forall₂ (Near E) (pieceOf pole F a b).toList (pieceOf pole F' a b).toList := by
  have hf : ∀ x y : ℝ, Ext.fin x < Ext.fin y ↔ x < y := fun x y => by simp [Ext.fin]
  rcases a with _ | _ | a <;> rcases b with _ | _ | b
  · exact .nil
  · exact .nil
  · refine .cons (.minf b _ _ ?_) .nil
    filter_upwards [hF] with x h hx
    exact h ⟨ninf_lt_extFin x, (hf x b).2 hx⟩
  · exact .nil
  · exact .nil
  · exact .nil
  · exact .nil
  · refine .cons (.pinf a _ _ ?_) .nil
    filter_upwards [hF] with x h hx
    exact h ⟨(hf a x).2 hx, extFin_lt_pinf x⟩
  · refine .cons (.fin _ a b _ _ ?_) .nil
    filter_upwards [hF] with x h hx
    exact h ⟨(hf a x).2 hx.1, (hf x b).2 hx.2⟩

theorem near_cuts {pole : ℝ → ℝ → Pole} {F F' : ℝ → ℝ → ℝ} : ∀ {brks : List (Ext ℝ)},
    (∀ a b, [a, b] <:+: brks → ∀ᵐ x, x ∈ interE a b → |F' (mid a b) x - F (mid a b) x| ≤ E x) →
    List.Forall₂ (Near E) (cuts pole F brks) (cuts pole F' brks)
  | [], _ => .nil
  | [_], _ => .nil
  | a :: b :: r, h => by
    rw [cuts, cuts]
    exact List.rel_append (near_pieceOf (h a b ⟨[], r, rfl⟩))
      (near_cuts fun u v huv => h u v (huv.trans (List.infix_cons (List.infix_refl _))))

theorem near_pieces {pole : ℝ → ℝ → Pole} {F F' : ℝ → ℝ → ℝ} {brks : List (Ext ℝ)}
    (h : ∀ a b, [a, b] <:+: brks → ∀ᵐ x, x ∈ interE a b → |F' (mid a b) x - F (mid a b) x| ≤ E x) :
    List.Forall₂ (Near E) (pieces pole F brks) (pieces pole F' brks) := by
  have hc := near_cuts (pole := pole) h
  unfold pieces
  refine List.rel_append (List.rel_append ?_ ?_) ?_
  · exact List.rel_filter (fun s s' hs => by simp only [hs.isMInf]) hc
  · exact List.rel_filter (fun s s' hs => by simp only [hs.isPInf]) hc
  · exact List.rel_filter (fun s s' hs => by simp only [hs.isMInf, hs.isPInf]) hc

/-- the error of a sum over pairs -/
theorem sumLoop_near {h0 h : Seg ℝ → Seg ℝ → Except PyErr ℝ} {e : Seg ℝ → Seg ℝ → ℝ} : ∀ (l : List (Seg ℝ × Seg ℝ)) (I J : ℝ),
    (∀ pr ∈ l, ∃ v w, h0 pr.1 pr.2 = .ok v ∧ h pr.1 pr.2 = .ok w ∧ |w - v| ≤ e pr.1 pr.2) →
    ∃ v w, sumLoop h0 l I = .ok v ∧ sumLoop h l J = .ok w ∧ |w - v| ≤ |J - I| + (l.map fun pr => e pr.1 pr.2).sum
  | [], I, J, _ => ⟨I, J, rfl, rfl, by simp⟩
  | pr :: r, I, J, hl => by
    obtain ⟨v, w, h1, h2, h3⟩ := hl pr (by simp)
    obtain ⟨V, W, i1, i2, i3⟩ := sumLoop_near r (I + v) (J + w) fun q hq => hl q (by simp [hq])
    refine ⟨V, W, ?_, ?_, i3.trans ?_⟩
    · rw [sumLoop, h1]; exact i1
    · rw [sumLoop, h2]; exact i2
    · rw [List.map_cons, List.sum_cons]
      have : |J + w - (I + v)| ≤ |J - I| + |w - v| := by
        rw [show J + w - (I + v) = (J - I) + (w - v) by ring]; exact abs_add_le _ _
      linarith

theorem sum_pairsBy_le (tt : Seg ℝ → Seg ℝ → Bool) (f g : PF ℝ) {e : Seg ℝ → Seg ℝ → ℝ} (he : ∀ i j, 0 ≤ e i j) :
    ((pairsBy tt f g).map fun pr => e pr.1 pr.2).sum ≤ sum2 f g e := by
  have e1 := sum_pairsBy (t := tt) f g (k := fun i j => if tt i j then e i j else 0) (by intro i _ j _ h; simp [h])
  have e2 : ((pairsBy tt f g).map fun pr => e pr.1 pr.2) = (pairsBy tt f g).map fun pr => if tt pr.1 pr.2 then e pr.1 pr.2 else 0 :=
    List.map_congr_left fun pr hpr => by rw [if_pos (mem_pairsBy.1 hpr).2.2]
  rw [e2, e1]
  unfold sum2
  refine List.sum_le_sum fun i _ => List.sum_le_sum fun j _ => ?_
  show (if tt i j then e i j else 0) ≤ e i j
  split_ifs
  · exact le_rfl
  · exact he i j

/-- **the pieces of two results**: contributions `h0` and `h` of the pairs that differ by at most `e` -/
theorem run_near {t : ℝ → Seg ℝ → Seg ℝ → Prop} {h0 h : ℝ → Seg ℝ → Seg ℝ → Except PyErr ℝ} {f g : PF ℝ} {brks : List (Ext ℝ)}
    {e : ℝ → Seg ℝ → Seg ℝ → ℝ} (he : ∀ x i j, 0 ≤ e x i j)
    (hh : ∀ si ∈ f, ∀ sj ∈ g, ∀ᵐ x, t x si sj → ∃ v w, h0 x si sj = .ok v ∧ h x si sj = .ok w ∧ |w - v| ≤ e x si sj)
    (hsame : ∀ a b, [a, b] <:+: brks → ∀ x ∈ interE a b, ∀ si ∈ f, ∀ sj ∈ g, t (mid a b) si sj ↔ t x si sj)
    (pole : ℝ → ℝ → Pole) :
    List.Forall₂ (Near fun x => sum2 f g (e x)) (pieces pole (runAt t h0 f g) brks) (pieces pole (runAt t h f g) brks) := by
  refine near_pieces fun a b hab => ?_
  filter_upwards [ae_pairs hh] with x hx hxi
  obtain ⟨v, w, h1, h2, h3⟩ := sumLoop_near (h0 := h0 x) (h := h x) (e := e x)
    (pairsBy (fun si sj => open Classical in decide (t (mid a b) si sj)) f g) 0 0 (by
      intro pr hpr
      obtain ⟨p1, p2, p3⟩ := mem_pairsBy.1 hpr
      exact hx _ p1 _ p2 ((hsame a b hab x hxi _ p1 _ p2).1 (by simpa using p3)))
  rw [runAt, runAt, h1, h2]
  refine h3.trans ?_
  rw [sub_self, abs_zero, zero_add]
  exact sum_pairsBy_le _ f g (he x)

/-! ### values -/

theorem near_seg_val (h : Near E s s') : ∀ᵐ x, |s'.val x - s.val x| ≤ if s.isDirac = false ∧ s.lo ≤ .fin x ∧ .fin x < s.hi then E x else 0 := by
  have hf : ∀ x y : ℝ, Ext.fin x < Ext.fin y ↔ x < y := fun x y => by simp [Ext.fin]
  have hl : ∀ x y : ℝ, Ext.fin x ≤ Ext.fin y ↔ x ≤ y := fun x y => by simp [Ext.fin]
  have ne : ∀ a : ℝ, ∀ᵐ x : ℝ, x ≠ a := fun a => by rw [ae_iff]; simp
  have key : ∀ᵐ x, s.isDirac = false → s.lo ≤ .fin x → .fin x < s.hi → |s'.fn x - s.fn x| ≤ E x := by
    cases h with
    | dirac a m => exact .of_forall fun x hd => by simp [Seg.isDirac] at hd
    | fin p a b f f' h =>
      filter_upwards [h, ne a] with x h1 h2 _ h3 h4
      exact h1 ⟨lt_of_le_of_ne ((hl a x).1 h3) (Ne.symm h2), (hf x b).1 h4⟩
    | minf b f f' h =>
      filter_upwards [h] with x h1 _ _ h4
      exact h1 ((hf x b).1 h4)
    | pinf a f f' h =>
      filter_upwards [h, ne a] with x h1 h2 _ h3 _
      exact h1 (lt_of_le_of_ne ((hl a x).1 h3) (Ne.symm h2))
  filter_upwards [key] with x hk
  rw [Seg.val, Seg.val, h.isDirac, h.lo, h.hi]
  split_ifs with hc
  · exact hk hc.1 hc.2.1 hc.2.2
  · simp

theorem val_zero_before {x : ℝ} {s : Seg ℝ} {l : PF ℝ} (h : ∀ t ∈ l, s.hi ≤ t.lo) (hx : .fin x < s.hi) : PF.val l x = 0 := by
  refine List.sum_eq_zero fun y hy => ?_
  obtain ⟨t, ht, rfl⟩ := List.mem_map.1 hy
  rw [Seg.val, if_neg]
  rintro ⟨-, h1, -⟩
  exact absurd (hx.trans_le (h t ht)) (not_lt.2 h1)

/-- values of functions with the same pieces -/
theorem near_val {eps : ℝ} (hE : ∀ x, 0 ≤ E x) (h : List.Forall₂ (Near E) l l') : l.Pairwise (Seg.LeftOf eps) →
    ∀ᵐ x, |PF.val l' x - PF.val l x| ≤ E x := by
  induction h with
  | nil => exact fun _ => .of_forall fun x => by simpa [PF.val] using hE x
  | @cons s s' l l' hs hl ih =>
    intro hw
    obtain ⟨w1, w2⟩ := List.pairwise_cons.1 hw
    filter_upwards [ih w2, near_seg_val hs] with x h1 h2
    have e1 : PF.val (s :: l) x = s.val x + PF.val l x := by simp [PF.val]
    have e2 : PF.val (s' :: l') x = s'.val x + PF.val l' x := by simp [PF.val]
    rw [e1, e2]
    by_cases hc : s.isDirac = false ∧ s.lo ≤ .fin x ∧ .fin x < s.hi
    · rw [if_pos hc] at h2
      have z1 : PF.val l x = 0 := val_zero_before (fun t ht => (w1 t ht).1) hc.2.2
      have z2 : PF.val l' x = 0 := by
        refine val_zero_before (s := s) ?_ hc.2.2
        intro t' ht'
        obtain ⟨i, hi, rfl⟩ := List.mem_iff_getElem.1 ht'
        have hlen := hl.length_eq
        have := (List.forall₂_iff_get.1 hl).2 i (by omega) hi
        simp only [List.get_eq_getElem] at this
        rw [this.lo]
        exact (w1 _ (List.getElem_mem _)).1
      rw [z1, z2, add_zero, add_zero]
      exact h2
    · rw [if_neg hc] at h2
      have : s'.val x = s.val x := by
        have := abs_nonpos_iff.1 h2
        linarith
      rw [this]
      simpa using h1

end Conv
end Pacal
