import Verif.Standard.LemE

/-!
Lemmas for `Verif.Standard.PropsFun`.
-/

namespace Pacal.Standard
open MeasureTheory Real Filter Topology

theorem finPiece_shape {f : ℝ → ℝ} {a b : ℝ} {lp rp rp' : Bool} (h1 : ¬ (lp = true ∧ rp' = true))
    (h2 : ¬ (rp = true ∧ rp' = true)) :
    ∃ s, finPiece f a b lp rp rp' = some s ∧ s.lo = .fin a ∧ s.hi = .fin b ∧ leftPole s = lp ∧ rightPole s = rp' ∧
      s.isDirac = false ∧ s.fn = f := by
  cases lp <;> cases rp <;> cases rp' <;>
    first
    | exact absurd ⟨rfl, rfl⟩ h1
    | exact absurd ⟨rfl, rfl⟩ h2
    | exact ⟨_, rfl, rfl, rfl, rfl, rfl, rfl, rfl⟩

theorem Shape.cons {f : ℝ → ℝ} {p q : Break} {l : List Break} {s : Seg ℝ} {r : PF ℝ} (h : Shape f (q :: l) r)
    (h1 : s.lo = p.at_) (h2 : s.hi = q.at_) (h3 : leftPole s = p.lp) (h4 : rightPole s = q.rp) (h5 : s.isDirac = false)
    (h6 : s.fn = f) : Shape f (p :: q :: l) (s :: r) := by
  obtain ⟨e1, e2, e3, e4, e5⟩ := h
  refine ⟨?_, ?_, ?_, ?_, ?_⟩
  · simpa [h1] using e1
  · simpa [h2] using e2
  · simpa [h3] using e3
  · simpa [h4] using e4
  · intro t ht
    rcases List.mem_cons.1 ht with rfl | ht
    · exact ⟨h5, h6⟩
    · exact e5 t ht

theorem Shape.last (f : ℝ → ℝ) (q : Break) : Shape f [q] [] :=
  ⟨rfl, rfl, rfl, rfl, by simp⟩

theorem laterPieces_shape (f : ℝ → ℝ) : ∀ (l : List Break) (p q : Break),
    (p :: q :: l).Pairwise (fun p q => p.at_ < q.at_) → (p :: q :: l).IsChain PolesOk → p.at_ ≠ Ext.ninf →
    ∃ r, laterPieces f (p :: q :: l) = some r ∧ Shape f (p :: q :: l) r := by
  intro l
  induction l with
  | nil =>
    intro p q hs hc hp
    have hpq : p.at_ < q.at_ := by simpa using hs
    have hc : PolesOk p q := by simpa using hc
    obtain ⟨a, ha⟩ := finite_of_between hp (lt_ne_pinf hpq)
    by_cases hq : q.at_ = Ext.pinf
    · refine ⟨[.pinf a f], ?_, ?_⟩
      · simp [laterPieces, ha, hq]
      · obtain ⟨h1, h2⟩ := hc.2.2 (Or.inr hq)
        exact (Shape.last f q).cons ha.symm hq.symm h1.symm h2.symm rfl rfl
    · obtain ⟨b, hb⟩ := finite_of_between (lt_ne_ninf hpq) hq
      obtain ⟨s, h1, h2, h3, h4, h5, h6, h7⟩ := finPiece_shape (f := f) (a := a) (b := b) hc.1 hc.2.1
      refine ⟨[s], ?_, (Shape.last f q).cons (h2.trans ha.symm) (h3.trans hb.symm) h4 h5 h6 h7⟩
      simp only [laterPieces, ha, hb, finite?_fin, fin_ne_ninf, fin_ne_pinf, or_self, if_false, Option.bind_some,
        h1, Option.map_some]
  | cons r l ih =>
    intro p q hs hc hp
    rw [List.pairwise_cons] at hs
    have hpq : p.at_ < q.at_ := hs.1 q (by simp)
    have hqr : q.at_ < r.at_ := (List.pairwise_cons.1 hs.2).1 r (by simp)
    rw [List.isChain_cons_cons] at hc
    obtain ⟨a, ha⟩ := finite_of_between hp (lt_ne_pinf hpq)
    obtain ⟨b, hb⟩ := finite_of_between (lt_ne_ninf hpq) (lt_ne_pinf hqr)
    obtain ⟨t, ht, hsh⟩ := ih q r hs.2 hc.2 (lt_ne_ninf hpq)
    obtain ⟨s, h1, h2, h3, h4, h5, h6, h7⟩ := finPiece_shape (f := f) (a := a) (b := b) hc.1.1 hc.1.2.1
    refine ⟨s :: t, ?_, hsh.cons (h2.trans ha.symm) (h3.trans hb.symm) h4 h5 h6 h7⟩
    rw [laterPieces, ha, hb]
    simp only [finite?_fin, Option.bind_some, h1, ht, Option.map_some]

theorem pieces_shape (f : ℝ → ℝ) (p q : Break) (l : List Break)
    (hs : (p :: q :: l).Pairwise (fun p q => p.at_ < q.at_)) (hc : (p :: q :: l).IsChain PolesOk)
    (he : EndsOk (p :: q :: l)) :
    ∃ r, pieces f (p :: q :: l) = some r ∧ Shape f (p :: q :: l) r := by
  have hpq : p.at_ < q.at_ := (List.pairwise_cons.1 hs).1 q (by simp)
  have hc' := hc
  rw [List.isChain_cons_cons] at hc'
  have hqf : ∃ b, q.at_ = .fin b := by
    refine finite_of_between (lt_ne_ninf hpq) ?_
    cases l with
    | nil => exact he
    | cons r l => exact lt_ne_pinf ((List.pairwise_cons.1 (List.pairwise_cons.1 hs).2).1 r (by simp))
  obtain ⟨b, hb⟩ := hqf
  have hfirst : ∃ s : Seg ℝ, (if p.at_ = Ext.ninf ∨ p.at_ = Ext.pinf then (finite? q.at_).map fun b => Seg.minf b f
      else (finite? p.at_).bind fun a => (finite? q.at_).bind fun b => finPiece f a b p.lp p.rp q.rp) = some s ∧
      s.lo = p.at_ ∧ s.hi = q.at_ ∧ leftPole s = p.lp ∧ rightPole s = q.rp ∧ s.isDirac = false ∧ s.fn = f := by
    by_cases hp : p.at_ = Ext.ninf
    · obtain ⟨h1, h2⟩ := hc'.1.2.2 (Or.inl hp)
      refine ⟨.minf b f, ?_, hp.symm, hb.symm, h1.symm, h2.symm, rfl, rfl⟩
      rw [if_pos (Or.inl hp), hb]
      rfl
    · obtain ⟨a, ha⟩ := finite_of_between hp (lt_ne_pinf hpq)
      obtain ⟨s, h1, h2, h3, h4, h5, h6, h7⟩ := finPiece_shape (f := f) (a := a) (b := b) hc'.1.1 hc'.1.2.1
      refine ⟨s, ?_, h2.trans ha.symm, h3.trans hb.symm, h4, h5, h6, h7⟩
      rw [if_neg (by rw [ha]; simp [fin_ne_ninf, fin_ne_pinf]), ha, hb]
      exact h1
  obtain ⟨s, h1, h2, h3, h4, h5, h6, h7⟩ := hfirst
  cases l with
  | nil =>
    refine ⟨[s], ?_, (Shape.last f q).cons h2 h3 h4 h5 h6 h7⟩
    rw [pieces, h1]; rfl
  | cons r l =>
    obtain ⟨t, ht, hsh⟩ := laterPieces_shape f l q r (List.pairwise_cons.1 hs).2 hc'.2 (lt_ne_ninf hpq)
    refine ⟨s :: t, ?_, hsh.cons h2 h3 h4 h5 h6 h7⟩
    rw [pieces, h1, ht]; rfl

theorem endOf_ge : ∀ (l : List Break) (p : Break), (p :: l).Pairwise (fun p q => p.at_ < q.at_) → p.at_ ≤ endOf p.at_ l
  | [], _, _ => le_refl _
  | q :: l, p, h => by
    rw [endOf]
    exact ((List.pairwise_cons.1 h).1 q (by simp)).le.trans (endOf_ge l q (List.pairwise_cons.1 h).2)

theorem getLast_endOf : ∀ (l : List Break) (p : Break), ((p :: l).map Break.at_).getLast? = some (endOf p.at_ l)
  | [], _ => rfl
  | q :: l, p => by
    rw [List.map_cons, List.map_cons, List.getLast?_cons_cons, endOf]
    exact getLast_endOf l q

theorem zip_breaks : ∀ bs : List Break,
    List.zipWith (fun b (lr : Bool × Bool) => (⟨b, lr.1, lr.2⟩ : Break)) (bs.map Break.at_)
      ((bs.map Break.lp).zip (bs.map Break.rp)) = bs
  | [] => rfl
  | p :: l => by
    simp only [List.map_cons, List.zip_cons_cons, List.zipWith_cons_cons, zip_breaks l]

theorem ofFun_eq (eps : ℝ) (f : ℝ → ℝ) (p q : Break) (l : List Break)
    (hs : (p :: q :: l).Pairwise (fun p q => p.at_ < q.at_)) :
    ofFun eps f ((p :: q :: l).map Break.at_) (some ((p :: q :: l).map Break.lp)) (some ((p :: q :: l).map Break.rp)) =
      (pieces f (p :: q :: l)).bind (PF.addAll eps []) := by
  have hlast : ((p :: q :: l).map Break.at_).getLast? = some (endOf q.at_ l) := getLast_endOf (q :: l) p
  have h1 : p.at_ < q.at_ := (List.pairwise_cons.1 hs).1 q (by simp)
  have h2 : q.at_ ≤ endOf q.at_ l := endOf_ge l q (List.pairwise_cons.1 hs).2
  have hz := zip_breaks (p :: q :: l)
  unfold ofFun
  rw [hlast, Option.getD_some, Option.getD_some]
  dsimp only [List.map_cons] at hz ⊢
  rw [hz]
  exact if_pos ⟨h1, h2, by simp, by simp⟩

/-- a non-trivial case: `(-inf, 0, 1, inf)` with a left pole at 0 -/
def exampleBreaks : List Break :=
  [⟨.ninf, false, false⟩, ⟨.fin 0, true, false⟩, ⟨.fin 1, false, false⟩, ⟨.pinf, false, false⟩]

end Pacal.Standard
