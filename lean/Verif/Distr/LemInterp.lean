import Verif.Distr.ModelInterp
import Verif.Distr.PropsSign
import Verif.Law.LemInterp

/-! Helper lemmas for the complementary distribution function (C94). -/

namespace Pacal
open MeasureTheory Set Transform

theorem ccdfFun_pick {eps : ℝ} (he : 0 ≤ eps) {q : Quad} {p : QPar} (h : ExactQ q p) {l : PF ℝ} (hne : l ≠ [])
    (hw : PF.WF eps l) (hd : PF.Dens l) (ht : PF.Touching l) (h1 : PF.law l univ = 1) :
    ∃ c, PF.cumint eps q p l = some c ∧ PF.ccdfFun eps q p l = some (c.map (rsubSeg 1)) ∧ PF.WF eps (c.map (rsubSeg 1)) ∧
      (∀ s ∈ c.map (rsubSeg 1), s.isDirac = false) ∧ (∀ s, (c.map (rsubSeg 1)).head? = some s → s.lo = .ninf) ∧
      ∀ x, pick x (c.map (rsubSeg 1)) = some ((PF.law l).real (Ioi x)) := by
  have hprob : IsProbabilityMeasure (PF.law l) := ⟨h1⟩
  obtain ⟨c, hc, hcw, hcn, hch, hpick⟩ := cumint_pick he h hne hw hd ht
  have hlo : ∀ s : Seg ℝ, (rsubSeg 1 s).lo = s.lo := by intro s; cases s <;> rfl
  have hhi : ∀ s : Seg ℝ, (rsubSeg 1 s).hi = s.hi := by intro s; cases s <;> rfl
  have hdi : ∀ s : Seg ℝ, (rsubSeg 1 s).isDirac = s.isDirac := by intro s; cases s <;> rfl
  have hw' : PF.WF eps (c.map (rsubSeg 1)) := by
    refine ⟨?_, ?_⟩
    · intro s hs
      obtain ⟨t, ht, rfl⟩ := List.mem_map.1 hs
      have := hcw.seg t ht
      cases t <;> exact this
    · rw [List.pairwise_map]
      refine (List.Pairwise.and_mem.1 hcw.sorted).imp fun {s t} h => ⟨by rw [hhi, hlo]; exact h.2.2.1, ?_⟩
      intro a m a' m' e1 e2
      have := hdi s
      rw [e1, hcn s h.1] at this
      simp [Seg.isDirac] at this
  refine ⟨c, hc, ?_, hw', ?_, ?_, ?_⟩
  · rw [PF.ccdfFun, hc, Option.bind_some]
    refine Eq.trans ?_ (addAll_self he hw')
    unfold PF.rsubReal PF.roperation
    congr 1
    refine List.map_congr_left fun s _ => ?_
    cases s <;> rfl
  · intro s hs
    obtain ⟨t, ht, rfl⟩ := List.mem_map.1 hs
    rw [hdi]; exact hcn t ht
  · intro s hs
    rw [List.head?_map] at hs
    obtain ⟨t, ht, rfl⟩ := Option.map_eq_some_iff.1 hs
    rw [hlo]; exact hch t ht
  · intro x
    rw [pick_rsub 1 x hcn, hpick, Option.map_some, ← compl_Iic, probReal_compl_eq_one_sub measurableSet_Iic]

theorem interpolatedCum_error {e : ℝ} (h0 : 0 ≤ e) {I : Interpolators} (atInf : (ℝ → ℝ) → Option ℝ) {l : PF ℝ} (h : ErrorAtMost e I l)
    {t : Seg ℝ} (ht : t ∈ l) {x : ℝ} (hd : t.isDirac = false) (h1 : t.lo ≤ .fin x) (h2 : .fin x ≤ t.hi) :
    |(t.interpolatedCum I atInf).fn x - t.fn x| ≤ e := by
  have hb := error_piece h t ht x hd h1 h2
  rcases t with _ | _ | ⟨b, f⟩ | ⟨a, f⟩ | _
  · exact hb
  · exact hb
  · unfold Seg.interpolatedCum
    dsimp only
    split_ifs
    · simpa using h0
    · exact hb
  · unfold Seg.interpolatedCum
    dsimp only
    split_ifs
    · simpa using h0
    · exact hb
  · exact hb

end Pacal
