import Verif.Conv.SumDensity

/-! Model of `SubDistr` and lemmas on reflected distributions. -/

namespace Pacal
namespace Conv
open MeasureTheory Set Transform Breaks

/-- `SubDistr.init_piecewise_pdf` (distr.py:1141-1143) -/
noncomputable def sub (P : Par) (pole : ℝ → ℝ → Pole) (f g : PF ℝ) : Option (PF ℝ) :=
  (g.copyShiftedAndScaled P.eps 0 (-1)).bind fun g' => conv P pole f g'

/-- the mirror image of an end -/
def negExt : Ext ℝ → Ext ℝ
  | none => .pinf
  | some none => .ninf
  | some (some a) => .fin (-a)

theorem reflect_lo (s : Seg ℝ) : (s.shiftAndScale 0 (-1)).lo = negExt s.hi := by
  have h : ¬ (-1 : ℝ) > 0 := by norm_num
  rcases s with ⟨_ | _ | _, a, b, f⟩ | _ | _ | _ | _ <;> simp only [Seg.shiftAndScale, if_neg h, Seg.lo, Seg.hi] <;>
    first
    | rfl
    | exact congrArg Ext.fin (by ring)

theorem reflect_hi (s : Seg ℝ) : (s.shiftAndScale 0 (-1)).hi = negExt s.lo := by
  have h : ¬ (-1 : ℝ) > 0 := by norm_num
  rcases s with ⟨_ | _ | _, a, b, f⟩ | _ | _ | _ | _ <;> simp only [Seg.shiftAndScale, if_neg h, Seg.lo, Seg.hi] <;>
    first
    | rfl
    | exact congrArg Ext.fin (by ring)

theorem negExt_le {a b : Ext ℝ} (h : a ≤ b) : negExt b ≤ negExt a := by
  rcases a with _ | _ | a <;> rcases b with _ | _ | b
  · exact le_rfl
  · exact ninf_le_ext _
  · exact ext_le_pinf _
  · exact absurd h (not_pinf_le_ninf)
  · exact le_rfl
  · exact absurd h (not_pinf_le _)
  · exact absurd h (not_le_ninf _)
  · exact ninf_le_ext _
  · exact extFin_le.2 (neg_le_neg (extFin_le.1 h))

theorem negExt_fin {e : Ext ℝ} {x : ℝ} (h : negExt e = .fin x) : e = .fin (-x) := by
  rcases e with _ | _ | a
  · exact absurd h.symm (extFin_lt_pinf x).ne
  · exact absurd h.symm (ninf_lt_extFin x).ne'
  · have : -a = x := by
      have h' : Ext.fin (-a) = Ext.fin x := h
      exact Breaks.fin_inj.1 h'
    rw [← this, neg_neg]; rfl

theorem reflect_perm {eps : ℝ} (he : 0 ≤ eps) {g : PF ℝ} (hg : PF.WF eps g) :
    ∃ r, g.copyShiftedAndScaled eps 0 (-1) = some r ∧ r.Perm (g.map (Seg.shiftAndScale 0 (-1))) ∧ PF.WF eps r := by
  have hg' : PF.WF (eps / |(-1 : ℝ)|) g := by simpa using hg
  have hd : (g.map (Seg.shiftAndScale 0 (-1))).Pairwise (Seg.Disjoint eps) := by
    rw [List.pairwise_map]
    exact hg'.sorted.imp fun h => .inr (shift_leftOf_neg (by norm_num) 0 h)
  obtain ⟨r, h1, h2, h3⟩ := addAll_wf he (g.map (Seg.shiftAndScale 0 (-1))) [] ⟨by simp, List.Pairwise.nil⟩ (by
    intro s hs
    obtain ⟨u, hu, rfl⟩ := List.mem_map.1 hs
    have h : ¬ (-1 : ℝ) > 0 := by norm_num
    have hw := hg.seg u hu
    rcases u with ⟨_ | _ | _, a, b, f⟩ | _ | _ | _ | _ <;> simp only [Seg.shiftAndScale, if_neg h, Seg.WF] at hw ⊢ <;> linarith) hd (by simp)
  exact ⟨r, h1, by simpa using h2, h3⟩

theorem reflect_ends {g r : PF ℝ} (h : r.Perm (g.map (Seg.shiftAndScale 0 (-1)))) {x : ℝ} (hx : x ∈ r.ends) : -x ∈ g.ends := by
  obtain ⟨s, hs, he⟩ := hx
  obtain ⟨u, hu, rfl⟩ := List.mem_map.1 (h.mem_iff.1 hs)
  rw [reflect_lo, reflect_hi] at he
  rcases he with he | he
  · exact ⟨u, hu, .inr (negExt_fin he)⟩
  · exact ⟨u, hu, .inl (negExt_fin he)⟩

theorem reflect_noHole {g r : PF ℝ} (h : r.Perm (g.map (Seg.shiftAndScale 0 (-1)))) (hg : g.NoHoleRight) : r.NoHole := by
  intro s hs
  obtain ⟨u, hu, rfl⟩ := List.mem_map.1 (h.mem_iff.1 hs)
  rcases hg u hu with h1 | ⟨t, ht, e⟩
  · left
    intro t ht
    obtain ⟨v, hv, rfl⟩ := List.mem_map.1 (h.mem_iff.1 ht)
    rw [reflect_lo, reflect_lo]
    exact negExt_le (h1 v hv)
  · right
    refine ⟨_, h.mem_iff.2 (List.mem_map_of_mem ht), ?_⟩
    rw [reflect_lo, reflect_hi, e]

theorem opLaw_neg (μ ν : Measure ℝ) [SFinite μ] [SFinite ν] :
    opLaw (· + ·) μ (ν.map fun x => x * (-1) + 0) = opLaw (· - ·) μ ν := by
  have h1 : Measurable fun x : ℝ => x * (-1) + 0 := by fun_prop
  rw [opLaw, ← Measure.map_id (μ := μ), Measure.map_prod_map _ _ measurable_id h1, Measure.map_map measurable_sum (measurable_id.prodMap h1),
    Measure.map_id, opLaw]
  congr 1
  ext p
  simp [sub_eq_add_neg]

end Conv
end Pacal
