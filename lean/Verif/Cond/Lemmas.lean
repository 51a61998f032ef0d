import Verif.Cond.Model
import Verif.Conv.PropsMinMax
import Verif.Conv.PropsProd
import Mathlib.Probability.ConditionalProbability

/-! Conditioning on an inequality: what the popped lists of pieces are. -/

namespace Pacal
namespace Cond
open MeasureTheory Set Transform Conv

/-! ### a piece on one side of a point -/

theorem law_above {s : Seg ℝ} {c : ℝ} (h : .fin c ≤ s.lo) (ha : ∀ m, s ≠ .dirac c m) : s.law (Iic c) = 0 := by
  rcases isDirac_cases s with hs | ⟨a, m, rfl⟩
  · rw [Seg.law_inner hs, withDensity_apply _ measurableSet_Iic, Measure.restrict_restrict measurableSet_Iic]
    have : Iic c ∩ s.inner = ∅ := by
      ext x
      simp only [mem_inter_iff, mem_Iic, mem_empty_iff_false, iff_false, not_and]
      intro hx hi
      have h1 : Ext.fin c < Ext.fin x := h.trans_lt hi.1
      exact absurd (Ext.fin_lt_fin.1 h1) (not_lt.2 hx)
    rw [this]; simp
  · have h1 : c ≤ a := Ext.fin_le_fin.1 h
    have h2 : a ≠ c := fun e => ha m (by rw [e])
    have h3 : c < a := lt_of_le_of_ne h1 h2.symm
    simp [Seg.law, h3]

theorem law_below {s : Seg ℝ} {c : ℝ} (h : s.hi ≤ .fin c) (ha : ∀ m, s ≠ .dirac c m) : s.law (Ici c) = 0 := by
  rcases isDirac_cases s with hs | ⟨a, m, rfl⟩
  · rw [Seg.law_inner hs, withDensity_apply _ measurableSet_Ici, Measure.restrict_restrict measurableSet_Ici]
    have : Ici c ∩ s.inner = ∅ := by
      ext x
      simp only [mem_inter_iff, mem_Ici, mem_empty_iff_false, iff_false, not_and]
      intro hx hi
      have h1 : Ext.fin x < Ext.fin c := hi.2.trans_le h
      exact absurd (Ext.fin_lt_fin.1 h1) (not_lt.2 hx)
    rw [this]; simp
  · have h1 : a ≤ c := Ext.fin_le_fin.1 h
    have h2 : a ≠ c := fun e => ha m (by rw [e])
    have h3 : a < c := lt_of_le_of_ne h1 h2
    simp [Seg.law, h3]

theorem law_zero {l : PF ℝ} {A : Set ℝ} (h : ∀ s ∈ l, s.law A = 0) : PF.law l A = 0 := by
  rw [← sum_law_apply]
  exact List.sum_eq_zero fun x hx => by obtain ⟨s, hs, rfl⟩ := List.mem_map.1 hx; exact h s hs

variable {eps : ℝ}

/-- the pieces before and after an atom -/
theorem split_atom (he : 0 ≤ eps) {r : PF ℝ} (hw : PF.WF eps r) {c m : ℝ} (h : Seg.dirac c m ∈ r) :
    ∃ pre post, r = pre ++ .dirac c m :: post ∧ (∀ s ∈ pre, s.hi ≤ .fin c ∧ s.lo < .fin c) ∧ (∀ s ∈ post, .fin c ≤ s.lo ∧ .fin c < s.hi) ∧
      PF.law pre (Ici c) = 0 ∧ PF.law post (Iic c) = 0 := by
  obtain ⟨pre, post, rfl⟩ := List.append_of_mem h
  have hs := hw.sorted
  rw [List.pairwise_append, List.pairwise_cons] at hs
  obtain ⟨-, ⟨h1, -⟩, h2⟩ := hs
  have hpre : ∀ s ∈ pre, s.hi ≤ .fin c ∧ ∀ m, s ≠ .dirac c m := by
    intro s hs
    have := h2 s hs (.dirac c m) (by simp)
    refine ⟨this.1, ?_⟩
    rintro n rfl
    have := this.2 _ _ _ _ rfl rfl
    rw [sub_self, abs_zero] at this
    exact absurd this (not_lt.2 he)
  have hpost : ∀ s ∈ post, .fin c ≤ s.lo ∧ ∀ m, s ≠ .dirac c m := by
    intro s hs
    have := h1 s hs
    refine ⟨this.1, ?_⟩
    rintro n rfl
    have := this.2 _ _ _ _ rfl rfl
    rw [sub_self, abs_zero] at this
    exact absurd this (not_lt.2 he)
  refine ⟨pre, post, rfl, ?_, ?_, law_zero fun s hs => law_below (hpre s hs).1 (hpre s hs).2,
    law_zero fun s hs => law_above (hpost s hs).1 (hpost s hs).2⟩
  · intro s hs
    refine ⟨(hpre s hs).1, ?_⟩
    rcases isDirac_cases s with hd | ⟨a, n, rfl⟩
    · exact (Seg.lo_lt_hi (hw.seg s (by simp [hs])) hd).trans_le (hpre s hs).1
    · refine lt_of_le_of_ne (hpre _ hs).1 fun e => (hpre _ hs).2 n ?_
      rw [Ext.fin_inj.1 e]
  · intro s hs
    refine ⟨(hpost s hs).1, ?_⟩
    rcases isDirac_cases s with hd | ⟨a, n, rfl⟩
    · exact (hpost s hs).1.trans_lt (Seg.lo_lt_hi (hw.seg s (by simp [hs])) hd)
    · refine lt_of_le_of_ne (hpost _ hs).1 fun e => (hpost _ hs).2 n ?_
      rw [Ext.fin_inj.1 e]

/-- what a `while` loop and a `pop` leave -/
theorem popBelow_eq {pre post : PF ℝ} {c m : ℝ} (h : ∀ s ∈ pre, s.lo < .fin c) :
    popBelow c (pre ++ .dirac c m :: post) = some (.dirac c m, post) := by
  have : (pre ++ .dirac c m :: post).dropWhile (fun s => decide (s.lo < .fin c)) = .dirac c m :: post := by
    rw [List.dropWhile_append_of_pos (by simpa using h), List.dropWhile_cons_of_neg]
    simp [Seg.lo]
  rw [popBelow, this]
  rfl

/-! ### constants and the rescaling -/

theorem constDistr_eq (eps c p : ℝ) : constDistr eps c p = some [.dirac c p] := by
  simp [constDistr, discretePF, tableSort, zeroPieces, PF.addAll, PF.addSegment, PF.mergeDirac, PF.insertSeg]
  rfl

theorem const_wf (eps c p : ℝ) : PF.WF eps [.dirac c p] := ⟨by simp [Seg.WF], List.pairwise_singleton _ _⟩

theorem const_dens' {c p : ℝ} (hp : 0 ≤ p) : PF.Dens [.dirac c p] := by
  intro s hs
  rw [List.mem_singleton] at hs
  subst hs
  exact hp

theorem const_law' (c p : ℝ) : PF.law [.dirac c p] = ENNReal.ofReal p • Measure.dirac c := by
  rw [PF.law_cons, PF.law_nil, add_zero]; rfl

theorem at_const {c p b : ℝ} : PF.At [.dirac c p] b ↔ b = c := by
  simp [PF.At]

theorem breaks_const {c p : ℝ} {e : Ext ℝ} : e ∈ PF.getBreaks [.dirac c p] ↔ e = .fin c := by
  rw [mem_getBreaks]
  simp [Seg.lo, Seg.hi]

theorem ends_const {c p x : ℝ} : x ∈ PF.ends [.dirac c p] ↔ x = c := by
  simp [PF.ends, Seg.lo, Seg.hi, eq_comm]

/-- the separation needed for the multiplication by the factor 1: ends of the pieces, -1, 0, 1 and their negatives -/
def ApartOne (eps : ℝ) (S : Set ℝ) : Prop :=
  ∀ a ∈ S ∪ {-1, 0, 1}, ∀ b ∈ ({-1, 0, 1} : Set ℝ), ∀ a' ∈ S ∪ {-1, 0, 1}, ∀ b' ∈ ({-1, 0, 1} : Set ℝ),
    a * b ≠ a' * b' → eps * max 1 |a * b| < |a * b - a' * b'|

theorem rescale_spec {P : Par} (he : 0 ≤ P.eps) (hP : ExactQ P.q P.qp) (pole : ℝ → ℝ → Pole) {z : PF ℝ} (hw : PF.WF P.eps z)
    (hd : PF.Dens z) (hz : PF.law z ≠ 0) {S : Set ℝ} (hS : PF.ends z ⊆ S) (ha : ApartOne P.eps S) {p : ℝ} (hp : 0 < p) :
    ∃ r, rescale P pole z p = some r ∧ PF.WF P.eps r ∧ PF.Dens r ∧ PF.law r = ENNReal.ofReal (1 / p) • PF.law z := by
  have hp' : 0 < 1 / p := by positivity
  have hfin := PF.law_finite hd
  have hm : PF.marks z ⊆ S ∪ {-1, 0, 1} := union_subset_union_left _ hS
  have hg : PF.marks [.dirac 1 (1 / p)] ⊆ ({-1, 0, 1} : Set ℝ) := by
    rintro x (hx | hx)
    · rw [ends_const.1 hx]; simp
    · exact hx
  have args : ProdArgs P z [.dirac 1 (1 / p)] := by
    refine ⟨he, ?_, by simp, hw, const_wf _ _ _, fun a h1 b h2 a' h3 b' h4 => ha a (hm h1) b (hg h2) a' (hm h3) b' (hg h4), ?_⟩
    · rintro rfl; exact hz PF.law_nil
    · by_cases h0 : PF.law z {0}ᶜ = 0
      · right
        refine ⟨?_, 1, 1 / p, hp', by simp⟩
        have h1 : PF.law z {0} ≠ 0 := by
          intro h1
          refine hz (Measure.measure_univ_eq_zero.1 ?_)
          rw [← Set.union_compl_self {(0 : ℝ)}, measure_union_null h1 h0]
        have h2 : 0 < z.massAt 0 := by
          rw [← law_singleton hd]
          exact ENNReal.toReal_pos h1 (measure_ne_top _ _)
        by_contra hc
        have : z.massAt 0 = 0 := by
          refine List.sum_eq_zero fun x hx => ?_
          obtain ⟨s, hs, rfl⟩ := List.mem_map.1 hx
          rcases isDirac_cases s with h | ⟨a, m, rfl⟩
          · cases s <;> first | rfl | simp [Seg.isDirac] at h
          · rw [Seg.massAt]
            split_ifs with h
            · have h0 : 0 ≤ m := hd _ hs
              rcases h0.eq_or_lt with h0 | h0
              · exact h0.symm
              · exact absurd ⟨a, m, h0, hs⟩ hc
            · rfl
        exact absurd this h2.ne'
      · left
        refine ⟨h0, ?_⟩
        rw [const_law']
        simp [hp]
  obtain ⟨r, r1, r2, r3, r4⟩ := C13_law_partial args hP hd (const_dens' hp'.le) pole
  refine ⟨r, ?_, r2, r3, ?_⟩
  · rw [rescale, if_neg hp.ne']
    have : discretePF P.eps [(1, 1 / p)] = some [.dirac 1 (1 / p)] := constDistr_eq _ _ _
    rw [this, Option.bind_some, r1]
  · rw [r4, const_law', opLaw_mul_comm, opLaw_dirac_left measurable_prod]
    congr 1
    have : (HMul.hMul (1 : ℝ) : ℝ → ℝ) = id := by ext x; exact one_mul x
    rw [this, Measure.map_id]

/-! ### the thresholds -/

/-- the conditions on a distribution conditioned with thresholds `T`: a non-empty list of pieces of positive length in
order, total mass 1; an atom is at a threshold or farther away than the tolerance under which atoms are merged; different
break points (and -1, 0, 1) are farther apart than the relative tolerance under which break points are merged -/
structure Args (P : Par) (f : PF ℝ) (T : Set ℝ) : Prop where
  eps : 0 ≤ P.eps
  fne : f ≠ []
  wf : PF.WF P.eps f
  dens : PF.Dens f
  prob : PF.law f univ = 1
  atoms : ∀ c ∈ T, ∀ a m, Seg.dirac a m ∈ f → a = c ∨ P.eps < |c - a|
  apart : ApartOne P.eps (T ∪ PF.ends f)

theorem Args.instProb {P : Par} {f : PF ℝ} {T : Set ℝ} (h : Args P f T) : IsProbabilityMeasure (PF.law f) := ⟨h.prob⟩

theorem clip {μ : Measure ℝ} {φ : ℝ → ℝ} (hφ : Measurable φ) {A : Set ℝ} (hA : MeasurableSet A) (h1 : φ ⁻¹' A = A)
    (h2 : ∀ x ∈ A, φ x = x) : (μ.map φ).restrict A = μ.restrict A := by
  ext B hB
  rw [Measure.restrict_apply hB, Measure.restrict_apply hB, Measure.map_apply hφ (hB.inter hA), preimage_inter, h1]
  congr 1
  ext x
  simp only [mem_inter_iff, mem_preimage]
  exact ⟨fun ⟨a, b⟩ => ⟨h2 x b ▸ a, b⟩, fun ⟨a, b⟩ => ⟨(h2 x b).symm ▸ a, b⟩⟩

theorem restrict_zero {μ : Measure ℝ} {A B : Set ℝ} (h : μ B = 0) (hs : A ⊆ B) : μ.restrict A = 0 :=
  Measure.restrict_eq_zero.2 (measure_mono_null hs h)

theorem restrict_self {μ : Measure ℝ} {A B : Set ℝ} (h : μ B = 0) (hs : Aᶜ ⊆ B) : μ.restrict A = μ :=
  Measure.restrict_eq_self_of_ae_mem (by
    rw [ae_iff]
    exact measure_mono_null hs h)

/-- the ends of the pieces of a clipped distribution -/
theorem ends_mm {opE : Ext ℝ → Ext ℝ → Ext ℝ} (hop : ∀ a b, opE a b = a ∨ opE a b = b) {f g r : PF ℝ}
    (h1 : ∀ s ∈ r, s.isDirac = false → s.lo ∈ mmBreaks opE f g ∧ s.hi ∈ mmBreaks opE f g)
    (h2 : ∀ a, PF.At r a ↔ PF.At f a ∨ PF.At g a) : PF.ends r ⊆ PF.ends f ∪ PF.ends g := by
  have hb : ∀ {l : PF ℝ} {x : ℝ}, Ext.fin x ∈ PF.getBreaks l → x ∈ PF.ends l := by
    intro l x h
    obtain ⟨s, hs, h⟩ := mem_getBreaks.1 h
    exact ⟨s, hs, h.imp Eq.symm Eq.symm⟩
  have hm : ∀ {x : ℝ}, Ext.fin x ∈ mmBreaks opE f g → x ∈ PF.ends f ∪ PF.ends g := by
    intro x h
    obtain ⟨a, ha, b, hb', e⟩ := mem_mmBreaks.1 h
    rcases hop a b with h' | h' <;> rw [h'] at e <;> subst e
    · exact .inl (hb ha)
    · exact .inr (hb hb')
  rintro x ⟨s, hs, hx⟩
  rcases isDirac_cases s with hd | ⟨a, m, rfl⟩
  · obtain ⟨e1, e2⟩ := h1 s hs hd
    rcases hx with hx | hx
    · exact hm (hx ▸ e1)
    · exact hm (hx ▸ e2)
  · have : a = x := by rcases hx with hx | hx <;> exact Ext.fin_inj.1 hx
    subst this
    rcases (h2 a).1 ⟨m, hs⟩ with ⟨n, h⟩ | ⟨n, h⟩
    · exact .inl ⟨_, h, .inl rfl⟩
    · exact .inr ⟨_, h, .inl rfl⟩

theorem ends_mono {l l' : PF ℝ} (h : ∀ s ∈ l, s ∈ l') : PF.ends l ⊆ PF.ends l' := fun _ ⟨s, hs, hx⟩ => ⟨s, h s hs, hx⟩

theorem sub_wf {l l' : PF ℝ} (h : l.Sublist l') (hw : PF.WF eps l') : PF.WF eps l :=
  ⟨fun s hs => hw.seg s (h.subset hs), hw.sorted.sublist h⟩

theorem sub_dens {l l' : PF ℝ} (h : l.Sublist l') (hw : PF.Dens l') : PF.Dens l := fun s hs => hw s (h.subset hs)

/-- the conditional law after the rescaling -/
theorem cond_eq {μ : Measure ℝ} [IsFiniteMeasure μ] {A : Set ℝ} {p : ℝ} (hp : 0 < p) (h : p = μ.real A) :
    ENNReal.ofReal (1 / p) • μ.restrict A = ProbabilityTheory.cond μ A := by
  rw [ProbabilityTheory.cond]
  congr 1
  rw [one_div, ENNReal.ofReal_inv_of_pos hp, h, ofReal_measureReal]

/-- the mass of the atom at the threshold -/
theorem atom_mass {pre post : PF ℝ} {c m : ℝ} (hm : 0 ≤ m) (h1 : PF.law pre {c} = 0) (h2 : PF.law post {c} = 0) :
    m = (PF.law (pre ++ .dirac c m :: post)).real {c} := by
  rw [PF.law_append, PF.law_cons, Measure.real, Measure.add_apply, Measure.add_apply, h1, h2]
  simp [Seg.law, hm]

end Cond
end Pacal
