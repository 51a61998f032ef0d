import Verif.Summary.Spec
import Verif.Identity.LemFold
import Verif.Identity.LemTidy
import Verif.Push.PropsFold
import Verif.Push.PropsShift
import Verif.Quantile.Props

/-!
Specification and lemmas for `Verif.Summary.PropsMad`.
-/

namespace Pacal.Summary
open MeasureTheory Set Quantile Transform Roots Identity

variable {eps : ℝ} {q : Quad} {qp : QPar} {S : Finder ℝ} {l : PF ℝ}

theorem chain_of_noHole : ∀ {l : PF ℝ}, PF.WF eps l → ContPF l → l.NoHole → List.IsChain (fun s t => s.hi = t.lo) l
  | [], _, _, _ => by simp
  | [s], _, _, _ => by simp
  | s :: t :: l, hw, hc, hh => by
    have hlt := ends_lt hw hc
    obtain ⟨w1, w2⟩ := List.pairwise_cons.1 hw.sorted
    have hw' : PF.WF eps (t :: l) := ⟨fun u hu => hw.seg u (List.mem_cons_of_mem _ hu), w2⟩
    refine List.isChain_cons_cons.2 ⟨?_, chain_of_noHole hw' (fun u hu => hc u (List.mem_cons_of_mem _ hu)) ?_⟩
    · rcases hh t (by simp) with h | ⟨u, hu, e⟩
      · exact absurd ((w1 t (by simp)).1.trans (h s (by simp))) (not_le.2 (hlt s (by simp)))
      · rcases List.mem_cons.1 hu with rfl | hu'
        · exact e
        · rcases List.mem_cons.1 hu' with rfl | hu''
          · exact absurd e (hlt u hu).ne'
          · have h1 := ((List.pairwise_cons.1 w2).1 u hu'').1
            have h2 := hlt u hu
            have h3 := hlt t (by simp)
            exact absurd (e ▸ (h3.trans_le h1).trans h2) (lt_irrefl _)
    · intro u hu
      rcases hh u (List.mem_cons_of_mem _ hu) with h | ⟨v, hv, e⟩
      · exact .inl fun w hw => h w (List.mem_cons_of_mem _ hw)
      · rcases List.mem_cons.1 hv with rfl | hv
        · exact .inl fun w hw => e ▸ (w1 w hw).1
        · exact .inr ⟨v, hv, e⟩

theorem tidy_of_chain (hw : PF.WF eps l) (hc : ContPF l) (hne : l ≠ []) (h : List.IsChain (fun s t => s.hi = t.lo) l) : Tidy l :=
  have hn := Identity.Linked.noHole ⟨hne, hc, h⟩ hw.seg
  ⟨hne, hc, hn.1, hn.2⟩

/-- a distribution that meets the hypotheses: `U(0, 1)` -/
theorem unit_setting : Setting 0 exactQuad ⟨0, 10, 6, 8⟩ ivtFinder [.const 0 1 1] where
  eps_nonneg := le_rfl
  quad := exDistr_setting.quad
  finder := ivtFinder_exact
  ne := by simp
  wf := ⟨by simp [Seg.WF], by simp⟩
  dens := by
    intro s hs
    rw [List.mem_singleton] at hs
    subst hs
    exact const_dens 0 1 zero_le_one
  total := by
    rw [PF.law_real_eq_sum (by
      intro s hs
      rw [List.mem_singleton] at hs
      subst hs
      exact const_dens 0 1 zero_le_one)]
    simp [const_mass 0 1]
  chain := by simp

end Pacal.Summary
