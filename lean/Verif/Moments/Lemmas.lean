import Verif.Moments.Model
import Verif.Conv.SumExample
import Mathlib.Analysis.SpecialFunctions.Integrals.Basic
import Mathlib.Probability.Moments.Variance
import Verif.Law.Integrals
import Mathlib.MeasureTheory.Integral.Bochner.ContinuousLinearMap
import Mathlib.MeasureTheory.Function.L1Space.Integrable
import Mathlib.MeasureTheory.Measure.WithDensityFinite

/-! Lemmas for `Moments/Props.lean`: every step of the loops adds the integral with respect to the measure of the piece. -/

namespace Pacal
namespace Moments
open MeasureTheory Set Transform Conv

/-- the error estimates of the quadrature are 0 -/
def ZeroErr (q : Quad) : Prop := ∀ g a b, (q g a b).2 = 0

theorem integral_law {s : Seg ℝ} (hs : s.isDirac = false) (hd : s.Dens) (g : ℝ → ℝ) : ∫ x, g x ∂s.law = ∫ x, g x * s.val x := by
  obtain ⟨h0, hi⟩ := (Seg.dens_of_not hs).1 hd
  rw [Seg.law_of_not hs, integral_withDensity_eq_integral_toReal_smul₀ hi.aestronglyMeasurable.aemeasurable.ennreal_ofReal
    (by simp)]
  refine integral_congr_ae ?_
  filter_upwards [h0] with x hx
  rw [ENNReal.toReal_ofReal hx, smul_eq_mul, mul_comm]

theorem integrable_law {s : Seg ℝ} (hs : s.isDirac = false) (hd : s.Dens) {g : ℝ → ℝ} (hg : Integrable g s.law) :
    Integrable (fun x => g x * s.val x) := by
  obtain ⟨h0, hi⟩ := (Seg.dens_of_not hs).1 hd
  rw [Seg.law_of_not hs, integrable_withDensity_iff_integrable_smul₀' hi.aestronglyMeasurable.aemeasurable.ennreal_ofReal
    (by simp)] at hg
  refine hg.congr ?_
  filter_upwards [h0] with x hx
  rw [ENNReal.toReal_ofReal hx, smul_eq_mul, mul_comm]

/-- `call` and `val` differ at the right end only -/
theorem call_ae {s : Seg ℝ} (hs : s.isDirac = false) : (fun x => s.call x) =ᵐ[volume] fun x => s.val x := by
  have hc : ∀ x, s.call x = if s.lo ≤ .fin x ∧ .fin x ≤ s.hi then s.fn x else 0 := by
    intro x; cases s <;> first | rfl | simp [Seg.isDirac] at hs
  have key : ∀ b : ℝ, ∀ᵐ x : ℝ, x ≠ b := fun b => by simp [ae_iff, measure_singleton]
  have main : ∀ x : ℝ, Ext.fin x ≠ s.hi → s.call x = s.val x := by
    intro x hx
    rw [hc, Seg.val]
    refine if_congr ?_ rfl rfl
    rw [hs]
    exact ⟨fun h => ⟨rfl, h.1, lt_of_le_of_ne h.2 hx⟩, fun h => ⟨h.2.1, h.2.2.le⟩⟩
  by_cases hb : ∃ b, s.hi = Ext.fin b
  · obtain ⟨b, hb⟩ := hb
    filter_upwards [key b] with x hx
    exact main x fun h => hx (Ext.fin_inj.1 (h.trans hb))
  · exact .of_forall fun x => main x fun h => hb ⟨x, h.symm⟩

theorem segint_err {q : Quad} (hz : ZeroErr q) {p : QPar} {f : ℝ → ℝ} {L U : EReal} {a b c d : Bool} {r : ℝ × ℝ}
    (h : segint q p f L U a b c d = .ok r) : r.2 = 0 := by
  have hw : ∀ node n, (wideSum q f node n).2 = 0 := by
    intro node n
    have : ∀ (l : List ℕ) (s : ℝ × ℝ), s.2 = 0 → (l.foldl (fun s i => (s.1 + (q f (node i) (node (i + 1))).1,
        s.2 + (q f (node i) (node (i + 1))).2)) s).2 = 0 := by
      intro l
      induction l with
      | nil => exact fun s hs => hs
      | cons i l ih => exact fun s hs => ih _ (by show s.2 + _ = 0; rw [hs, hz, add_zero])
    exact this _ _ rfl
  have hwf : ∀ a b, (wideFin q p.cond f a b).2 = 0 := by
    intro a b
    rw [wideFin]
    split_ifs <;> first | exact hw _ _ | exact hz _ _ _
  have hwide : ∀ L U, (wide q p.cond f L U).2 = 0 := fun L U => hwf _ _
  unfold segint at h
  split_ifs at h <;> cases h <;>
    first
    | rfl
    | exact hwide _ _
    | exact hz _ _ _
    | (show (xnP q p.eps f _ _ _).2 + (xnN q p.eps f _ _ _).2 = 0; rw [xnP, xnN]; simp [hz _ _ _])

theorem lo_le_hi' {s : Seg ℝ} (hw : s.WF) : lo s ≤ hi s := by
  cases s with
  | fin p a b f => exact EReal.coe_le_coe_iff.2 (le_of_lt hw)
  | const a b c => exact EReal.coe_le_coe_iff.2 (le_of_lt hw)
  | minf b f => exact bot_le
  | pinf a f => exact le_top
  | dirac a m => exact le_rfl

theorem not_line {s : Seg ℝ} : lo s ≠ ⊥ ∨ hi s ≠ ⊤ := by
  cases s with
  | fin p a b f => exact .inl (EReal.coe_ne_bot a)
  | const a b c => exact .inl (EReal.coe_ne_bot a)
  | minf b f => exact .inr (EReal.coe_ne_top b)
  | pinf a f => exact .inl (EReal.coe_ne_bot a)
  | dirac a m => exact .inl (EReal.coe_ne_bot a)

theorem term_spec {q : Quad} {p : QPar} (h : ExactQ q p) {g : ℝ → ℝ} {s : Seg ℝ} (hw : s.WF) (hd : s.Dens)
    (hg : Integrable g s.law) : ∃ e, term q p g s = .ok (∫ x, g x ∂s.law, e) ∧ (ZeroErr q → e = 0) := by
  cases hs : s.isDirac
  · have ht : term q p g s = segint q p (fun x => g x * s.call x) (lo s) (hi s) false false s.hasLeftPole s.hasRightPole := by
      cases s <;> first | rfl | simp [Seg.isDirac] at hs
    have hae : (fun x => g x * s.call x) =ᵐ[volume] fun x => g x * s.val x := by
      filter_upwards [call_ae hs] with x hx
      rw [hx]
    have hint : Integrable (fun x => g x * s.call x) := (integrable_law hs hd hg).congr hae.symm
    obtain ⟨r, hr, hI⟩ := C57_segint h.exact h.eps h.cond h.expInf h.expPole (lo_le_hi' hw) not_line
      (hint.integrableOn (s := between (lo s) (hi s))) s.hasLeftPole s.hasRightPole
    refine ⟨r.2, ?_, fun hz => segint_err hz hr⟩
    rw [ht, hr, integral_law hs hd, ← integral_congr_ae hae]
    have : ∫ x in between (lo s) (hi s), g x * s.call x = ∫ x, g x * s.call x := by
      refine setIntegral_eq_integral_of_forall_compl_eq_zero fun x hx => ?_
      have : s.call x = 0 := by
        have hc : s.call x = if s.lo ≤ .fin x ∧ .fin x ≤ s.hi then s.fn x else 0 := by
          cases s <;> first | rfl | simp [Seg.isDirac] at hs
        rw [hc, if_neg]
        exact hx
      rw [this, mul_zero]
    rw [← this, ← hI]
  · cases s <;> simp [Seg.isDirac] at hs
    rename_i a m
    refine ⟨0, ?_, fun _ => rfl⟩
    have hm : 0 ≤ m := hd
    rw [term, Seg.law, integral_smul_measure, integral_dirac, ENNReal.toReal_ofReal hm, smul_eq_mul]

theorem loop_spec {q : Quad} {p : QPar} (h : ExactQ q p) {g : ℝ → ℝ} : ∀ {l : PF ℝ} {st : St}, (∀ s ∈ l, s.WF) → PF.Dens l →
    Integrable g (PF.law l) → ∃ st', loop q p g l st = .ok st' ∧ st'.I = st.I + ∫ x, g x ∂PF.law l ∧
      st'.absI = st.absI + (l.map fun s => |∫ x, g x ∂s.law|).sum ∧ (ZeroErr q → st'.E = st.E ∧ st'.absE = st.absE)
  | [], st, _, _, _ => ⟨st, rfl, by simp, by simp, fun _ => ⟨rfl, rfl⟩⟩
  | s :: l, st, hw, hd, hg => by
    obtain ⟨d1, d2⟩ := PF.dens_cons.1 hd
    rw [PF.law_cons] at hg ⊢
    obtain ⟨g1, g2⟩ := integrable_add_measure.1 hg
    obtain ⟨e, he, hz⟩ := term_spec h (hw s (by simp)) d1 g1
    obtain ⟨st', h1, h2, h4, h3⟩ := loop_spec h (st := ⟨st.I + ∫ x, g x ∂s.law, st.E + e, st.absE + |e|, st.absI + |∫ x, g x ∂s.law|⟩)
      (fun t ht => hw t (by simp [ht])) d2 g2
    refine ⟨st', ?_, ?_, ?_, fun z => ?_⟩
    · rw [loop, he]; exact h1
    · rw [h2, integral_add_measure g1 g2, ← add_assoc]
    · rw [h4, List.map_cons, List.sum_cons, ← add_assoc]
    · rw [(h3 z).1, (h3 z).2, hz z]; simp

/-- the square of the distance from a point is integrable -/
theorem sq_integrable {μ : Measure ℝ} [IsFiniteMeasure μ] (h : MemLp (fun x => x) 2 μ) (m : ℝ) :
    Integrable (fun x => (x - m) ^ 2) μ :=
  (h.sub (memLp_const m)).integrable_sq

theorem law_parts : ∀ l : PF ℝ, PF.law l = PF.law (PF.segs l) + PF.law (PF.diracs l)
  | [] => by simp [PF.segs, PF.diracs, PF.law_nil]
  | s :: l => by
    rw [PF.law_cons, law_parts l]
    cases hs : s.isDirac
    · rw [show PF.segs (s :: l) = s :: PF.segs l by simp [PF.segs, hs], show PF.diracs (s :: l) = PF.diracs l by simp [PF.diracs, hs],
        PF.law_cons, add_assoc]
    · rw [show PF.segs (s :: l) = PF.segs l by simp [PF.segs, hs], show PF.diracs (s :: l) = s :: PF.diracs l by simp [PF.diracs, hs],
        PF.law_cons, add_left_comm]

/-- a NaN mean makes every central moment of positive order 0, because the NaN is replaced by 0 inside `meanf` -/
theorem moment_nan {q : Quad} {p : QPar} (hq : ExactQ q p) {l : PF ℝ} (hw : ∀ s ∈ l, s.WF) (hd : PF.Dens l) {k : ℕ} (hk : k ≠ 0)
    (hm : mean q p l = .ok none) : moment q p l k none = .ok (some 0) := by
  obtain ⟨st, h1, h2, h3, -⟩ := loop_spec hq (st := ⟨0, 0, 0, 0⟩) hw hd (g := fun _ => 0) (integrable_zero _ _ _)
  have h0 : st.absI = 0 := by rw [h3]; simp
  rw [moment, hm]
  dsimp only [Except.bind]
  rw [if_neg hk, meanf, h1]
  simp only [Except.map]
  rw [if_neg (by rw [h0]; simp), h2]
  simp

/-! ### the fair mixture of 0 and the uniform distribution on `[0, 1]` -/

theorem halfAtom_int (g : ℝ → ℝ) (hg : Continuous g) : Integrable g (PF.law halfAtom) ∧
    ∫ x, g x ∂PF.law halfAtom = 1 / 2 * g 0 + ∫ x in (0 : ℝ)..1, g x * (1 / 2) := by
  have hv : ∀ x, (Seg.const (0 : ℝ) 1 (1 / 2)).val x = indicator (Ico 0 1) (fun _ => 1 / 2) x := by
    intro x; rw [const_val]; simp only [indicator, mem_Ico]
  have i2 : Integrable g (Seg.const (0 : ℝ) 1 (1 / 2)).law := by
    rw [Seg.law_of_not rfl]
    have : (volume.withDensity fun x => ENNReal.ofReal ((Seg.const (0 : ℝ) 1 (1 / 2)).val x)) =
        ENNReal.ofReal (1 / 2) • volume.restrict (Ico (0 : ℝ) 1) := by
      rw [← withDensity_const, ← withDensity_indicator measurableSet_Ico]
      congr 1
      funext x
      rw [hv]
      simp only [indicator]
      split_ifs <;> simp
    rw [this]
    exact ((hg.integrableOn_Icc (a := 0) (b := 1)).mono_set Ico_subset_Icc_self).smul_measure (by simp)
  have i1 : Integrable g (Seg.dirac (0 : ℝ) (1 / 2)).law := (integrable_dirac (by simp)).smul_measure (by simp)
  have e : PF.law halfAtom = (Seg.dirac (0 : ℝ) (1 / 2)).law + (Seg.const (0 : ℝ) 1 (1 / 2)).law := by
    rw [halfAtom, PF.law_cons, PF.law_cons, PF.law_nil, add_zero]
  refine ⟨by rw [e]; exact integrable_add_measure.2 ⟨i1, i2⟩, ?_⟩
  rw [e, integral_add_measure i1 i2, integral_law rfl (const_dens _ _ (by norm_num)), Seg.law, integral_smul_measure, integral_dirac,
    ENNReal.toReal_ofReal (by norm_num), smul_eq_mul]
  congr 1
  have : (fun x => g x * (Seg.const (0 : ℝ) 1 (1 / 2)).val x) = indicator (Ico 0 1) fun x => g x * (1 / 2) := by
    funext x; rw [hv]; simp only [indicator]; split_ifs <;> simp
  rw [this, integral_indicator measurableSet_Ico, intervalIntegral.integral_of_le (by norm_num), integral_Ico_eq_integral_Ioo,
    integral_Ioc_eq_integral_Ioo]

theorem halfAtom_mean : ∫ x, x ∂PF.law halfAtom = 1 / 4 := by
  rw [(halfAtom_int _ continuous_id').2, intervalIntegral.integral_mul_const, integral_id]; norm_num

theorem halfAtom_var : ∫ x, (x - ∫ x, x ∂PF.law halfAtom) ^ 2 ∂PF.law halfAtom = 5 / 48 := by
  rw [halfAtom_mean, (halfAtom_int _ (by fun_prop)).2, intervalIntegral.integral_mul_const]
  have : ∫ x in (0 : ℝ)..1, (x - 1 / 4) ^ 2 = 7 / 48 := by
    rw [intervalIntegral.integral_comp_sub_right (fun x => x ^ 2)]
    rw [integral_pow]; norm_num
  rw [this]
  norm_num

end Moments
end Pacal
