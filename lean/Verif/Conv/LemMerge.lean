import Verif.Conv.SumExample
import Verif.Conv.MinMaxLemmas

/-! A run of `convmin` in which two values of the minimum are closer than the tolerance. -/

namespace Pacal
namespace Conv
open MeasureTheory Set Transform Breaks

theorem dirac_tail (q : Quad) (qp : QPar) (x m a : ℝ) : (Seg.dirac x m).integrate q qp (a : ℝ) ⊤ = if a < x then m else 0 := by
  have e : (((a : ℝ) : WithBot ℝ) < ((x : ℝ) : WithBot ℝ) ∧ ((x : ℝ) : WithTop ℝ) < ⊤) ∨
      (((a : ℝ) : WithBot ℝ) = ((x : ℝ) : WithBot ℝ) ∧ (⊤ : WithTop ℝ) = ((x : ℝ) : WithTop ℝ)) ↔ a < x := by
    simp [WithTop.coe_lt_top]
  simp only [Seg.integrate, e]

theorem coinMin_run {P : Par} (h0 : 0 < P.eps) (h1 : P.eps < 1) :
    ∃ F, convmin P [.dirac 0 (1 / 2), .dirac 1 (1 / 2)] [.dirac (P.eps / 2) 1] =
      some [.dirac 0 1, .fin .none 0 (P.eps / 2) F, .dirac 1 0] := by
  obtain ⟨e, he⟩ : ∃ e, e = P.eps := ⟨_, rfl⟩
  rw [← he] at h0 h1 ⊢
  have p2 : 0 < e / 2 := by linarith
  have q2 : e / 2 < 1 := by linarith
  have n1 : ¬ (1 : ℝ) < e / 2 := by linarith
  have n2 : ¬ (1 : ℝ) ≤ e / 2 := by linarith
  have n3 : ¬ e / 2 < 0 := by linarith
  have m0 : min (Ext.fin 0) (Ext.fin (e / 2)) = Ext.fin 0 := min_eq_left (Ext.fin_le_fin.2 p2.le)
  have m1 : min (Ext.fin 1) (Ext.fin (e / 2)) = Ext.fin (e / 2) := min_eq_right (Ext.fin_le_fin.2 q2.le)
  have f01 : Ext.fin (0 : ℝ) < Ext.fin 1 := Ext.fin_lt_fin.2 one_pos
  have f02 : Ext.fin (0 : ℝ) < Ext.fin (e / 2) := Ext.fin_lt_fin.2 p2
  have b1 : PF.getBreaks [.dirac 0 (1 / 2), .dirac 1 (1 / 2)] = [Ext.fin 0, Ext.fin (1 : ℝ)] := by
    have n : ¬ Ext.fin (1 : ℝ) < Ext.fin 0 := f01.not_gt
    show PF.insUniq _ (PF.insUniq _ (PF.insUniq _ (PF.insUniq _ []))) = _
    simp only [Seg.lo, Seg.hi, PF.insUniq, if_pos f01, if_neg n, f01.ne', if_false, lt_irrefl, if_true]
  have b2 : PF.getBreaks [.dirac (e / 2) 1] = [Ext.fin (e / 2)] := by
    show PF.insUniq _ (PF.insUniq _ []) = _
    simp only [Seg.lo, Seg.hi, PF.insUniq, lt_irrefl, if_false, if_true]
  have hw : ∀ m n : ℝ, PF.WF e [.dirac 0 m, .dirac 1 n] := fun m n => by
    refine ⟨by simp [Seg.WF], ?_⟩
    simp only [List.pairwise_cons, List.mem_cons, List.not_mem_nil, or_false, forall_eq]
    refine ⟨⟨f01.le, ?_⟩, by simp, .nil⟩
    rintro a m a' m' h1 h2
    cases h1; cases h2
    norm_num; exact h1
  have hw1 : ∀ m : ℝ, PF.WF e [.dirac (e / 2) m] := fun m => ⟨by simp [Seg.WF], by simp⟩
  have s1 : PF.splitByPoints e [.dirac 0 (1 / 2), .dirac 1 (1 / 2)] (PF.finites [Ext.fin (e / 2)]) =
      some [.dirac 0 (1 / 2), .dirac 1 (1 / 2)] := addAll_self h0.le (hw _ _)
  have s2 : PF.splitByPoints e [.dirac (e / 2) 1] (PF.finites [Ext.fin 0, Ext.fin (1 : ℝ)]) =
      some [.dirac (e / 2) 1] := addAll_self h0.le (hw1 _)
  have u : PF.npUnique ([Ext.fin 0, Ext.fin (1 : ℝ)].flatMap fun a => [Ext.fin (e / 2)].map fun b => min a b) =
      [Ext.fin 0, Ext.fin (e / 2)] := by
    simp only [List.flatMap_cons, List.flatMap_nil, List.map_cons, List.map_nil, m0, m1, List.append_nil, List.singleton_append]
    show PF.insUniq _ (PF.insUniq _ []) = _
    simp only [PF.insUniq, if_pos f02]
  have t0 : PF.integrate P.q P.qp [.dirac (e / 2) 1] (0 : ℝ) ⊤ = 1 := by
    simp only [PF.integrate, List.foldl_cons, List.foldl_nil, dirac_tail, if_pos p2, zero_add]
  have t1 : PF.integrate P.q P.qp [.dirac (e / 2) 1] (1 : ℝ) ⊤ = 0 := by
    simp only [PF.integrate, List.foldl_cons, List.foldl_nil, dirac_tail, if_neg n1, zero_add]
  have t2 : PF.integrate P.q P.qp [.dirac 0 (1 / 2), .dirac 1 (1 / 2)] (e / 2 : ℝ) ⊤ = 1 / 2 := by
    simp only [PF.integrate, List.foldl_cons, List.foldl_nil, dirac_tail, if_neg n3, if_pos q2, zero_add]
  have hd : probDiracs e (fun h a => h.integrate P.q P.qp a ⊤) [.dirac 0 (1 / 2), .dirac 1 (1 / 2)] [.dirac (e / 2) 1] =
      some [.dirac 0 1, .dirac 1 0] := by
    have g1 : ∀ m n : ℝ, PF.getDirac (e / 2) [.dirac 0 m, .dirac 1 n] = none := fun m n => by
      simp only [PF.getDirac, p2.ne, q2.ne', if_false]
    have g2 : |e / 2 - 0| ≤ e := by rw [sub_zero, abs_of_pos p2]; linarith
    have a1 : PF.addAll e [] [.dirac 0 (1 / 2 * 1), .dirac 1 (1 / 2 * 0)] = some [.dirac 0 (1 / 2 * 1), .dirac 1 (1 / 2 * 0)] :=
      addAll_self h0.le (hw _ _)
    have a2 : PF.addAll e [] [.dirac (e / 2) (1 * (1 / 2))] = some [.dirac (e / 2) (1 * (1 / 2))] := addAll_self h0.le (hw1 _)
    have a3 : addDiracs e [.dirac 0 (1 / 2 * 1), .dirac 1 (1 / 2 * 0)] [.dirac (e / 2) (1 * (1 / 2))] =
        some [.dirac 0 1, .dirac 1 0] := by
      simp only [addDiracs, g1, Option.isNone_none, if_true, PF.addSegment, PF.mergeDirac, if_pos g2, Option.bind_some]
      norm_num
    simp only [probDiracs, List.filterMap_cons, List.filterMap_nil, t0, t1, t2, g1, Option.map_none, a1, a2, a3,
      Option.bind_some]
    rfl
  have hfin : ∀ F : ℝ → ℝ, addDiracs e [.fin .none 0 (e / 2) F] [.dirac 0 1, .dirac 1 0] =
      some [.dirac 0 1, .fin .none 0 (e / 2) F, .dirac 1 0] := by
    intro F
    have w0 : PF.WF e [.fin .none 0 (e / 2) F] := ⟨by simpa [Seg.WF] using h0, by simp⟩
    have w1 : PF.WF e [.dirac 0 1, .fin .none 0 (e / 2) F] := by
      refine ⟨by simpa [Seg.WF] using h0, ?_⟩
      simp only [List.pairwise_cons, List.mem_cons, List.not_mem_nil, or_false, forall_eq]
      exact ⟨⟨le_rfl, by simp⟩, by simp, .nil⟩
    have w2 : PF.WF e [.dirac 0 1, .fin .none 0 (e / 2) F, .dirac 1 0] := by
      refine ⟨by simpa [Seg.WF] using h0, ?_⟩
      simp only [List.pairwise_cons, List.mem_cons, List.not_mem_nil, or_false, forall_eq, forall_eq_or_imp]
      refine ⟨⟨⟨le_rfl, by simp⟩, f01.le, ?_⟩, ⟨Ext.fin_le_fin.2 q2.le, by simp⟩, by simp, .nil⟩
      rintro a m a' m' h1 h2
      cases h1; cases h2
      norm_num; exact h1
    have d1 : PF.addSegment e [.fin .none 0 (e / 2) F] (.dirac 0 1) = some [.dirac 0 1, .fin .none 0 (e / 2) F] := by
      have := (List.pairwise_cons.1 w1.2).1
      exact addSegment_split (l₁ := []) (l₂ := [Seg.fin .none 0 (e / 2) F]) h0.le (by simpa using w0.1) trivial (by simp) this
    have d2 : PF.addSegment e [.dirac 0 1, .fin .none 0 (e / 2) F] (.dirac 1 0) =
        some [.dirac 0 1, .fin .none 0 (e / 2) F, .dirac 1 0] := by
      have w3 : List.Pairwise (Seg.LeftOf e) ([Seg.dirac 0 1, Seg.fin .none 0 (e / 2) F] ++ [Seg.dirac 1 0]) := w2.2
      have := (List.pairwise_append.1 w3).2.2
      exact addSegment_split (l₁ := [Seg.dirac 0 1, Seg.fin .none 0 (e / 2) F]) (l₂ := []) h0.le (by simpa using w1.1) trivial
        (fun t ht => this t ht _ (by simp)) (by simp)
    simp only [addDiracs, PF.getDirac, Option.isNone_none, if_true, d1, Option.bind_some, zero_ne_one, if_false, d2]
  have hp : ∀ F : ℝ → ℝ → ℝ, PF.addAll e [] (pieces (fun _ _ => .none) F [Ext.fin 0, Ext.fin (e / 2)]) =
      some [.fin .none 0 (e / 2) (F ((0 + e / 2) / 2))] := fun F =>
    addAll_self (l := [.fin .none 0 (e / 2) (F ((0 + e / 2) / 2))]) h0.le ⟨by simpa [Seg.WF] using h0, by simp⟩
  exact ⟨_, by
    rw [convmin, convMM, b1, b2]
    simp only [← he, s1, s2, Option.bind_some, u, hd, hp, hfin]
    rfl⟩

end Conv
end Pacal
