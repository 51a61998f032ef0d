import Verif.Quantile.Quant
import Verif.Law.PropsCdf

/-! The setting of the theorems of `Quantile/Props.lean`, an example that meets it, and lemmas for the counterexamples. -/

namespace Pacal
namespace Quantile
open MeasureTheory Set Transform Filter Roots

/-- a probability distribution given by contiguous pieces, and exact numerics -/
structure Setting (eps : ℝ) (q : Quad) (qp : QPar) (S : Finder ℝ) (l : PF ℝ) : Prop where
  eps_nonneg : 0 ≤ eps
  quad : ExactQ q qp
  finder : ExactFinder S
  ne : l ≠ []
  wf : PF.WF eps l
  dens : PF.Dens l
  total : (PF.law l).real univ = 1
  chain : List.IsChain (fun s t => s.hi = t.lo) l

/-- parameters with a budget for the search for a bracket -/
abbrev par (eps : ℝ) (q : Quad) (qp : QPar) (S : Finder ℝ) (fuel : ℕ) : Par := ⟨eps, q, qp, ⟨S, fun _ => true, fuel⟩⟩

variable {eps : ℝ} {q : Quad} {qp : QPar} {S : Finder ℝ} {l : PF ℝ}

theorem Setting.prob (h : Setting eps q qp S l) : IsProbabilityMeasure (PF.law l) := by
  have := PF.law_finite h.dens
  constructor
  have h1 := h.total
  rw [Measure.real, ENNReal.toReal_eq_one_iff] at h1
  exact h1

theorem Iic_le_of_null {μ : Measure ℝ} [IsFiniteMeasure μ] {r : ℝ} (ha : μ {r} = 0) : μ.real (Iic r) ≤ μ.real (Iio r) := by
  have : μ.real (Iic r) ≤ μ.real (Iio r) + μ.real {r} := by
    rw [← Iio_union_right]; exact measureReal_union_le _ _
  rwa [measureReal_def μ {r}, ha, ENNReal.toReal_zero, add_zero] at this

theorem getBreaks_eq {c : PF ℝ} {L : List (Ext ℝ)} (h1 : L.Pairwise (· < ·)) (hm : ∀ x, x ∈ PF.getBreaks c ↔ x ∈ L) :
    PF.getBreaks c = L := by
  have h2 : (PF.getBreaks c).Pairwise (· < ·) := by
    unfold PF.getBreaks
    split
    · simp
    · exact npUnique_sorted _
  refine List.Perm.eq_of_pairwise (le := (· < ·)) (fun a b _ _ h1 h2 => absurd h1 (lt_asymm h2)) h2 h1 ?_
  exact (List.perm_ext_iff_of_nodup (h2.imp ne_of_lt) (h1.imp ne_of_lt)).2 hm

theorem loop2_pos (brk : List EReal) {y : ℝ} (i : ℕ) {s t : Seg ℝ} (c : PF ℝ) (x : Option Flt) (h : s.valHi ≤ y ∧ y ≤ t.valLo) :
    loop2 brk y i (s :: t :: c) x = loop2 brk y (i + 1) (t :: c) (some (some (brk.getD (i + 1) 0))) := by
  rw [loop2, if_pos h]

theorem loop2_neg (brk : List EReal) {y : ℝ} (i : ℕ) {s t : Seg ℝ} (c : PF ℝ) (x : Option Flt) (h : ¬ (s.valHi ≤ y ∧ y ≤ t.valLo)) :
    loop2 brk y i (s :: t :: c) x = loop2 brk y (i + 1) (t :: c) x := by
  rw [loop2, if_neg h]

theorem cumint_const (q : Quad) (p : QPar) (a b c y : ℝ) :
    (Seg.const a b c).cumint q p y = .fin .none a b fun t => y + c * (min t b - a) := by
  have : (fun t : ℝ => y + c * (clipHi b t - clipLo a a)) = fun t => y + c * (min t b - a) := by
    funext t; rw [clipLo_self, clipHi_coe]
  rw [← this]; rfl

theorem solveSeg_const {S : Finder ℝ} (hS : ExactFinder S) (fin : ℝ → Bool) (fuel : ℕ) (q : Quad) (p : QPar) {a b c y0 y : ℝ} (hab : a ≤ b)
    (h0 : y0 ≤ y) (h1 : y ≤ y0 + c * (b - a)) :
    ∃ x : ℝ, solveSeg ⟨S, fin, fuel⟩ y ((Seg.const a b c).cumint q p y0) = .ok (some (x : EReal)) := by
  obtain ⟨x, -, hx, -⟩ := hS (fun t => y0 + c * (min t b - a) - y) a b hab (by fun_prop) (by
    rw [min_eq_left hab]; linarith) (by rw [min_self]; linarith)
  refine ⟨x, ?_⟩
  rw [cumint_const]
  simp [solveSeg, findinv, hx, Except.map]

theorem valLo_const (q : Quad) (p : QPar) {a b c y : ℝ} (h : a ≤ b) : ((Seg.const a b c).cumint q p y).valLo = y := by
  rw [cumint_const, Seg.valLo, min_eq_left h]; ring

theorem valHi_const (q : Quad) (p : QPar) {a b c y : ℝ} : ((Seg.const a b c).cumint q p y).valHi = y + c * (b - a) := by
  rw [cumint_const, Seg.valHi, min_self]

theorem PF_pairs {a b c d e : ℝ} (h1 : a < b) (h2 : b < c) (h3 : c < d) (h4 : d < e) :
    [Ext.ninf, .fin a, .fin b, .fin c, .fin d, .fin e, .pinf].Pairwise (· < ·) := by
  rw [← List.isChain_iff_pairwise]
  simp only [List.isChain_cons_cons, List.isChain_singleton, and_true]
  exact ⟨EReal.bot_lt_coe a, Ext.fin_lt_fin.2 h1, Ext.fin_lt_fin.2 h2, Ext.fin_lt_fin.2 h3, Ext.fin_lt_fin.2 h4, EReal.coe_lt_top e⟩

theorem lim_const_bot (a : ℝ) : limUnder atBot (fun _ : ℝ => a) = a := tendsto_const_nhds.limUnder_eq
theorem lim_const_top (a : ℝ) : limUnder atTop (fun _ : ℝ => a) = a := tendsto_const_nhds.limUnder_eq

/-- an exact root finder -/
noncomputable def ivtFinder : Finder ℝ := fun g a b =>
  open Classical in if h : ∃ x ∈ Icc a b, g x = 0 then .ok h.choose else .error (.op 1)

theorem ivtFinder_exact : ExactFinder ivtFinder := by
  intro g a b hab hc ha hb
  have h : ∃ x ∈ Icc a b, g x = 0 := intermediate_value_Icc hab hc ⟨ha, hb⟩
  exact ⟨h.choose, h.choose_spec.1, by rw [ivtFinder, dif_pos h], h.choose_spec.2⟩

/-- a mixture of an atom at 0, the uniform distribution on `[0, 1]` and an atom at 1 -/
noncomputable def exDistr : PF ℝ := [.dirac 0 (1 / 4), .const 0 1 (1 / 2), .dirac 1 (1 / 4)]

theorem exDistr_law (A : Set ℝ) (hA : MeasurableSet A) : (PF.law exDistr).real A =
    A.indicator (fun _ => 1 / 4) 0 + (Seg.const 0 1 (1 / 2)).law.real A + A.indicator (fun _ => 1 / 4) 1 := by
  have hd : PF.Dens exDistr := by
    simp only [exDistr, PF.Dens, List.mem_cons, List.not_mem_nil, or_false, forall_eq_or_imp, forall_eq]
    exact ⟨by norm_num [Seg.Dens], const_dens 0 1 (by norm_num), by norm_num [Seg.Dens]⟩
  rw [PF.law_real_eq_sum hd]
  simp only [exDistr, List.map_cons, List.map_nil, List.sum_cons, List.sum_nil]
  rw [Seg.law_real_dirac (by norm_num) hA, Seg.law_real_dirac (by norm_num) hA]
  ring

theorem exDistr_setting : Setting 0 exactQuad ⟨0, 10, 6, 8⟩ ivtFinder exDistr where
  eps_nonneg := le_rfl
  quad := ⟨fun _ _ _ => rfl, rfl, by norm_num, by norm_num, by norm_num⟩
  finder := ivtFinder_exact
  ne := by simp [exDistr]
  wf := by
    refine ⟨?_, ?_⟩
    · simp only [exDistr, List.mem_cons, List.not_mem_nil, or_false, forall_eq_or_imp, forall_eq, Seg.WF]; norm_num
    · simp only [exDistr, List.pairwise_cons, List.mem_cons, List.not_mem_nil, or_false, forall_eq_or_imp, forall_eq]
      refine ⟨⟨⟨ext_le.2 (by norm_num), by simp⟩, ext_le.2 (by norm_num), ?_⟩, ⟨ext_le.2 (by norm_num), by simp⟩, by simp, .nil⟩
      rintro a m a' m' h1 h2
      cases h1; cases h2; norm_num
  dens := by
    simp only [exDistr, PF.Dens, List.mem_cons, List.not_mem_nil, or_false, forall_eq_or_imp, forall_eq]
    exact ⟨by norm_num [Seg.Dens], const_dens 0 1 (by norm_num), by norm_num [Seg.Dens]⟩
  total := by
    rw [exDistr_law _ MeasurableSet.univ, const_mass 0 1 (by norm_num) (by norm_num)]; norm_num
  chain := by simp [exDistr, Seg.lo, Seg.hi]

end Quantile
end Pacal
