import Verif.Conv.Tail
import Verif.Conv.MinMaxModel

/-! The contribution of one pair of pieces to a minimum or maximum. -/

namespace Pacal
namespace Conv
open MeasureTheory Set Transform

/-- the density of a pair: one variable is at `x`, the other one behind it -/
noncomputable def tk (T : ℝ → Set ℝ) (si sj : Seg ℝ) (x : ℝ) : ℝ := den sj x * (si.law).real (T x) + den si x * (sj.law).real (T x)

/-- the atom of a piece -/
noncomputable def atomPart : Seg ℝ → Measure ℝ
  | .dirac a m => ENNReal.ofReal m • Measure.dirac a
  | _ => 0

/-- the atoms of a pair -/
noncomputable def tailAtoms (T : ℝ → Set ℝ) (si sj : Seg ℝ) : Measure ℝ :=
  (atomPart si).withDensity (fun x => sj.law (T x)) + (atomPart sj).withDensity (fun x => si.law (T x)) +
    (atomPart si).withDensity fun x => sj.law {x}

theorem den_dirac (a m x : ℝ) : den (.dirac a m) x = 0 := by
  refine den_eq_zero fun h => ?_
  rw [mem_inner] at h
  exact absurd (h.1.trans h.2) (lt_irrefl _)

theorem den_nonneg' {s : Seg ℝ} (hd : s.Dens) : ∀ᵐ x, 0 ≤ den s x := by
  rcases isDirac_cases s with h | ⟨a, m, rfl⟩
  · exact den_nonneg h hd
  · exact .of_forall fun x => (den_dirac a m x).ge

theorem den_integrable' {s : Seg ℝ} (hd : s.Dens) : Integrable (den s) := by
  rcases isDirac_cases s with h | ⟨a, m, rfl⟩
  · exact den_integrable h hd
  · rw [show den (.dirac a m) = fun _ => (0 : ℝ) from funext fun x => den_dirac a m x]
    exact integrable_zero _ _ _

theorem law_parts (s : Seg ℝ) : s.law = (volume.withDensity fun x => ENNReal.ofReal (den s x)) + atomPart s := by
  rcases isDirac_cases s with h | ⟨a, m, rfl⟩
  · rw [den_law h]
    cases s <;> first | exact (add_zero _).symm | simp [Seg.isDirac] at h
  · rw [show den (.dirac a m) = fun _ => (0 : ℝ) from funext fun x => den_dirac a m x]
    simp [withDensity_zero, atomPart, Seg.law]

variable {op : ℝ → ℝ → ℝ} {T : ℝ → Set ℝ}

theorem half_nonneg {si sj : Seg ℝ} (hdj : sj.Dens) :
    ∀ᵐ x, 0 ≤ den sj x * (si.law).real (T x) := by
  filter_upwards [den_nonneg' hdj] with x hx using mul_nonneg hx measureReal_nonneg

theorem half_integrable (h : Tail op T) {si sj : Seg ℝ} (hdi : si.Dens) (hdj : sj.Dens) :
    Integrable fun x => den sj x * (si.law).real (T x) := by
  have := Seg.law_finite hdi
  refine ((den_integrable' hdj).mul_const ((si.law).real univ)).mono
    ((den_integrable' hdj).aestronglyMeasurable.mul (h.meas_tail si.law).ennreal_toReal.aestronglyMeasurable) (.of_forall fun x => ?_)
  rw [norm_mul, norm_mul, Real.norm_of_nonneg measureReal_nonneg, Real.norm_of_nonneg measureReal_nonneg]
  exact mul_le_mul_of_nonneg_left (measureReal_mono (subset_univ _)) (norm_nonneg _)

theorem half_law (h : Tail op T) {si sj : Seg ℝ} (hdi : si.Dens) (hdj : sj.Dens) :
    (sj.law).withDensity (fun x => si.law (T x)) =
      (volume.withDensity fun x => ENNReal.ofReal (den sj x * (si.law).real (T x))) + (atomPart sj).withDensity fun x => si.law (T x) := by
  have := Seg.law_finite hdi
  rw [law_parts sj, withDensity_add_measure]
  congr 1
  rw [← withDensity_mul₀ (den_integrable' hdj).aestronglyMeasurable.aemeasurable.ennreal_ofReal (h.meas_tail si.law).aemeasurable]
  refine withDensity_congr_ae ?_
  filter_upwards [den_nonneg' hdj] with x hx
  rw [Pi.mul_apply, ENNReal.ofReal_mul hx, ofReal_measureReal]

theorem eq_law {si sj : Seg ℝ} (hdi : si.Dens) (hdj : sj.Dens) :
    (si.law).withDensity (fun x => sj.law {x}) = (atomPart si).withDensity fun x => sj.law {x} := by
  have := Seg.law_finite hdj
  rw [law_parts si, withDensity_add_measure]
  rw [← withDensity_mul₀ (den_integrable' hdi).aestronglyMeasurable.aemeasurable.ennreal_ofReal (meas_singleton sj.law).aemeasurable]
  rw [withDensity_congr_ae (g := 0), withDensity_zero, zero_add]
  have : ∀ᵐ x : ℝ, sj.law {x} = 0 := by
    rcases isDirac_cases sj with h | ⟨a, m, rfl⟩
    · refine .of_forall fun x => ?_
      rw [den_law h]
      exact withDensity_absolutelyContinuous _ _ (by simp)
    · have : ∀ᵐ x : ℝ, x ≠ a := by simp [ae_iff]
      filter_upwards [this] with x hx
      rw [Seg.law, Measure.smul_apply, Measure.dirac_apply' _ (measurableSet_singleton x)]
      simp [Ne.symm hx]
  filter_upwards [this] with x hx
  simp [hx]

theorem tk_law (h : Tail op T) {si sj : Seg ℝ} (hdi : si.Dens) (hdj : sj.Dens) :
    (∀ᵐ x, 0 ≤ tk T si sj x) ∧ Integrable (tk T si sj) ∧
    opLaw op si.law sj.law = (volume.withDensity fun x => ENNReal.ofReal (tk T si sj x)) + tailAtoms T si sj := by
  have := Seg.law_finite hdi
  have := Seg.law_finite hdj
  refine ⟨?_, (half_integrable h hdi hdj).add (half_integrable h hdj hdi), ?_⟩
  · filter_upwards [half_nonneg (T := T) (si := si) hdj, half_nonneg (T := T) (si := sj) hdi] with x h1 h2 using add_nonneg h1 h2
  · rw [opLaw_tail h, half_law h hdi hdj, half_law h hdj hdi, eq_law hdi hdj, tailAtoms]
    have : (volume.withDensity fun x => ENNReal.ofReal (tk T si sj x)) =
        (volume.withDensity fun x => ENNReal.ofReal (den sj x * (si.law).real (T x))) +
          volume.withDensity fun x => ENNReal.ofReal (den si x * (sj.law).real (T x)) := by
      ext A hA
      rw [Measure.add_apply, withDensity_apply _ hA, withDensity_apply _ hA, withDensity_apply _ hA, ← lintegral_add_left'
        (half_integrable h hdi hdj).aestronglyMeasurable.aemeasurable.ennreal_ofReal.restrict]
      refine lintegral_congr_ae (ae_restrict_of_ae ?_)
      filter_upwards [half_nonneg (T := T) (si := si) hdj, half_nonneg (T := T) (si := sj) hdi] with x h1 h2
      rw [tk, ENNReal.ofReal_add h1 h2]
    rw [this]
    abel

/-! ### the values the code computes -/

theorem law_real_between {s : Seg ℝ} (hs : s.isDirac = false) (hd : s.Dens) {S : Set ℝ} (hS : MeasurableSet S) {L U : EReal}
    (h : ∀ t : ℝ, (t ∈ S ∧ t ∈ s.inner) ↔ (L < t ∧ (t : EReal) < U)) :
    IntegrableOn s.fn (between L U) ∧ ∫ t in between L U, s.fn t = s.law.real S := by
  have e : {t : ℝ | L < t ∧ (t : EReal) < U} = S ∩ s.inner := by ext t; exact (h t).symm
  have hae := openBetween_ae L U
  rw [e] at hae
  constructor
  · refine IntegrableOn.congr_set_ae ?_ hae.symm
    exact ((Seg.dens_inner hs).1 hd).2.mono_set inter_subset_right
  · rw [Seg.law_real hs hd hS, ← setIntegral_congr_set hae, setIntegral_congr_ae (g := s.inner.indicator s.fn) hS]
    · rw [setIntegral_indicator s.measurableSet_inner]
    · filter_upwards [Seg.val_ae hs] with x hx _ using hx

theorem ae_ne_end (e : EReal) : ∀ᵐ x : ℝ, (x : EReal) ≠ e := by
  induction e using EReal.rec with
  | bot => exact .of_forall fun x => EReal.coe_ne_bot x
  | top => exact .of_forall fun x => EReal.coe_ne_top x
  | coe y =>
    have : ∀ᵐ x : ℝ, x ≠ y := by simp [ae_iff]
    filter_upwards [this] with x hx h
    exact hx (EReal.coe_injective h)

/-- the test of `_findSegList` -/
def Test (op : EReal → EReal → EReal) (z : ℝ) (si sj : Seg ℝ) : Prop :=
    min (min (op (lo si) (lo sj)) (op (hi si) (hi sj))) (min (op (lo si) (hi sj)) (op (hi si) (lo sj))) < z ∧
    z < max (max (op (lo si) (lo sj)) (op (hi si) (hi sj))) (max (op (lo si) (hi sj)) (op (hi si) (lo sj)))

theorem lo_le_hi' {s : Seg ℝ} (hw : s.WF) : lo s ≤ hi s := s.lo_le_hi hw

theorem corners_min {α : Type*} [LinearOrder α] {a b c d : α} (h1 : a ≤ b) (h2 : c ≤ d) :
    min (min (min a c) (min b d)) (min (min a d) (min b c)) = min a c ∧
    max (max (min a c) (min b d)) (max (min a d) (min b c)) = min b d := by
  constructor
  · refine le_antisymm ((min_le_left _ _).trans (min_le_left _ _)) (le_min (le_min le_rfl (min_le_min h1 h2)) (le_min ?_ ?_))
    · exact min_le_min le_rfl h2
    · exact min_le_min h1 le_rfl
  · refine le_antisymm (max_le (max_le (min_le_min h1 h2) le_rfl) (max_le ?_ ?_)) ((le_max_right _ _).trans (le_max_left _ _))
    · exact min_le_min h1 le_rfl
    · exact min_le_min le_rfl h2

theorem corners_max {α : Type*} [LinearOrder α] {a b c d : α} (h1 : a ≤ b) (h2 : c ≤ d) :
    min (min (max a c) (max b d)) (min (max a d) (max b c)) = max a c ∧
    max (max (max a c) (max b d)) (max (max a d) (max b c)) = max b d := by
  constructor
  · refine le_antisymm ((min_le_left _ _).trans (min_le_left _ _)) (le_min (le_min le_rfl (max_le_max h1 h2)) (le_min ?_ ?_))
    · exact max_le_max le_rfl h2
    · exact max_le_max h1 le_rfl
  · refine le_antisymm (max_le (max_le (max_le_max h1 h2) le_rfl) (max_le ?_ ?_)) ((le_max_right _ _).trans (le_max_left _ _))
    · exact max_le_max h1 le_rfl
    · exact max_le_max le_rfl h2

theorem test_min {si sj : Seg ℝ} (hi' : si.WF) (hj : sj.WF) (z : ℝ) :
    Test min z si sj ↔ min (lo si) (lo sj) < z ∧ (z : EReal) < min (hi si) (hi sj) := by
  obtain ⟨c1, c2⟩ := corners_min (lo_le_hi' hi') (lo_le_hi' hj)
  rw [Test, c1, c2]

theorem test_max {si sj : Seg ℝ} (hi' : si.WF) (hj : sj.WF) (z : ℝ) :
    Test max z si sj ↔ max (lo si) (lo sj) < z ∧ (z : EReal) < max (hi si) (hi sj) := by
  obtain ⟨c1, c2⟩ := corners_max (lo_le_hi' hi') (lo_le_hi' hj)
  rw [Test, c1, c2]

/-- one half of the loop body, given the integral -/
theorem half_eq {si sj : Seg ℝ} (hdi : si.Dens) (hwj : sj.WF) {S : Set ℝ} (hS : MeasurableSet S) {x : ℝ}
    (h1 : (x : EReal) ≠ lo sj) (h2 : (x : EReal) ≠ hi sj) {int : Except PyErr ℝ}
    (hint : si.isDirac = false → int = .ok (sj.fn x * si.law.real S)) (hdir : ∀ a m, si = .dirac a m → x ∈ sj.inner → a ∈ S) :
    halfPair int x si sj = .ok (den sj x * si.law.real S) := by
  by_cases hx : x ∈ sj.inner
  · have hx' := mem_inner.1 hx
    have hsj : sj.isDirac = false := by
      rcases isDirac_cases sj with h | ⟨a, m, rfl⟩
      · exact h
      · exact absurd (hx'.1.trans hx'.2) (lt_irrefl _)
    rw [halfPair, if_pos ⟨⟨hx'.1.le, hx'.2.le⟩, (lo_lt_hi hsj hwj).ne⟩, den_eq hx]
    rcases isDirac_cases si with hsi | ⟨a, m, rfl⟩
    · rw [if_pos ⟨hsi, hsj⟩, hint hsi]
    · rw [if_neg (by simp [Seg.isDirac]), if_pos ⟨rfl, hsj⟩, Seg.law_real_dirac hdi hS, indicator_of_mem (hdir a m rfl hx), mul_comm]
      rfl
  · rw [den_eq_zero hx, zero_mul, halfPair, if_neg]
    rintro ⟨⟨h3, h4⟩, -⟩
    exact hx (mem_inner.2 ⟨lt_of_le_of_ne h3 (Ne.symm h1), lt_of_le_of_ne h4 h2⟩)

theorem segint_law {P : Par} (hP : ExactQ P.q P.qp) {s : Seg ℝ} (hs : s.isDirac = false) (hd : s.Dens) {S : Set ℝ}
    (hS : MeasurableSet S) {L U : EReal} (hLU : L ≤ U) (hne : L ≠ ⊥ ∨ U ≠ ⊤)
    (h : ∀ t : ℝ, (t ∈ S ∧ t ∈ s.inner) ↔ (L < t ∧ (t : EReal) < U)) (c : ℝ) {F : ℝ → ℝ} (hF : ∀ t, F t = c * s.fn t) :
    (segint P.q P.qp F L U false false false false).map Prod.fst = .ok (c * s.law.real S) := by
  obtain ⟨i1, i2⟩ := law_real_between hs hd hS h
  obtain rfl : F = fun t => c * s.fn t := funext hF
  obtain ⟨r, r1, r2⟩ := C57_segint hP.exact hP.eps hP.cond hP.expInf hP.expPole hLU hne (i1.const_mul c) false false
  rw [r1, ← i2, ← integral_const_mul]
  exact congrArg Except.ok r2

theorem law_behind {s : Seg ℝ} (hd : s.Dens) {S : Set ℝ} (hS : MeasurableSet S) (h : ∀ t ∈ S, ¬ (lo s ≤ t ∧ (t : EReal) ≤ hi s)) :
    s.law.real S = 0 := by
  rcases isDirac_cases s with hs | ⟨a, m, rfl⟩
  · rw [Seg.law_real hs hd hS, setIntegral_congr_fun (g := fun _ => (0 : ℝ)) hS]
    · simp
    · intro t ht
      have := h t ht
      show (if _ then _ else _) = (0 : ℝ)
      rw [if_neg]
      rintro ⟨-, h1, h2⟩
      exact this ⟨h1, le_of_lt h2⟩
  · rw [Seg.law_real_dirac hd hS, indicator_of_notMem]
    intro ha
    exact h a ha ⟨le_rfl, le_rfl⟩

theorem min_zero {si sj : Seg ℝ} (hdi : si.Dens) {x : ℝ}
    (h : ¬ (min (lo si) (lo sj) < x ∧ (x : EReal) < min (hi si) (hi sj))) : den sj x * si.law.real (Ioi x) = 0 := by
  by_cases hx : x ∈ sj.inner
  · rw [mem_inner] at hx
    rw [law_behind hdi measurableSet_Ioi, mul_zero]
    rintro t ht ⟨-, h2⟩
    have : (x : EReal) < t := EReal.coe_lt_coe_iff.2 ht
    exact h ⟨min_lt_of_right_lt hx.1, lt_min (this.trans_le h2) hx.2⟩
  · rw [den_eq_zero hx, zero_mul]

theorem max_zero {si sj : Seg ℝ} (hdi : si.Dens) {x : ℝ}
    (h : ¬ (max (lo si) (lo sj) < x ∧ (x : EReal) < max (hi si) (hi sj))) : den sj x * si.law.real (Iio x) = 0 := by
  by_cases hx : x ∈ sj.inner
  · rw [mem_inner] at hx
    rw [law_behind hdi measurableSet_Iio, mul_zero]
    rintro t ht ⟨h1, -⟩
    have : (t : EReal) < x := EReal.coe_lt_coe_iff.2 ht
    exact h ⟨max_lt (h1.trans_lt this) hx.1, lt_max_of_lt_right hx.2⟩
  · rw [den_eq_zero hx, zero_mul]

theorem half_min {P : Par} (hP : ExactQ P.q P.qp) {si sj : Seg ℝ} (hwi : si.WF) (hwj : sj.WF) (hdi : si.Dens) {x : ℝ}
    (h1 : (x : EReal) ≠ lo sj) (h2 : (x : EReal) ≠ hi sj)
    (ht : min (lo si) (lo sj) < x ∧ (x : EReal) < min (hi si) (hi sj)) {F : ℝ → ℝ} (hF : ∀ t, F t = sj.fn x * si.fn t) :
    halfPair ((segint P.q P.qp F (max (lo si) x) (hi si) false false false false).map Prod.fst) x si sj =
      .ok (den sj x * si.law.real (Ioi x)) := by
  have hx := (lt_min_iff.1 ht.2).1
  refine half_eq hdi hwj measurableSet_Ioi h1 h2 (fun hs => ?_) ?_
  · refine segint_law hP hs hdi measurableSet_Ioi (max_le (lo_le_hi' hwi) hx.le) (.inl ?_) (fun t => ?_) _ hF
    · exact ne_of_gt ((EReal.bot_lt_coe x).trans_le (le_max_right _ _))
    · rw [mem_inner, max_lt_iff, mem_Ioi, ← EReal.coe_lt_coe_iff]; tauto
  · rintro a m rfl -
    exact EReal.coe_lt_coe_iff.1 hx

theorem half_max {P : Par} (hP : ExactQ P.q P.qp) {si sj : Seg ℝ} (hwi : si.WF) (hwj : sj.WF) (hdi : si.Dens) {x : ℝ}
    (h1 : (x : EReal) ≠ lo sj) (h2 : (x : EReal) ≠ hi sj)
    (ht : max (lo si) (lo sj) < x ∧ (x : EReal) < max (hi si) (hi sj)) {F : ℝ → ℝ} (hF : ∀ t, F t = sj.fn x * si.fn t) :
    halfPair ((segint P.q P.qp F (lo si) (min (hi si) x) false false false false).map Prod.fst) x si sj =
      .ok (den sj x * si.law.real (Iio x)) := by
  have hx := (max_lt_iff.1 ht.1).1
  refine half_eq hdi hwj measurableSet_Iio h1 h2 (fun hs => ?_) ?_
  · refine segint_law hP hs hdi measurableSet_Iio (le_min (lo_le_hi' hwi) hx.le) (.inr ?_) (fun t => ?_) _ hF
    · exact ne_of_lt ((min_le_right _ _).trans_lt (EReal.coe_lt_top x))
    · rw [mem_inner, lt_min_iff, mem_Iio, ← EReal.coe_lt_coe_iff]; tauto
  · rintro a m rfl -
    exact EReal.coe_lt_coe_iff.1 hx

theorem pairMin_spec {P : Par} (hP : ExactQ P.q P.qp) {si sj : Seg ℝ} (hwi : si.WF) (hwj : sj.WF) (hdi : si.Dens) (hdj : sj.Dens) :
    PairSpec min (Test min) (pairMin P) (tk Ioi) (tailAtoms Ioi) si sj := by
  obtain ⟨c1, c2, c3⟩ := tk_law tailMin hdi hdj
  refine ⟨c1, c2, c3, ?_, ?_⟩
  · filter_upwards [ae_ne_end (lo si), ae_ne_end (hi si), ae_ne_end (lo sj), ae_ne_end (hi sj)] with x e1 e2 e3 e4 ht
    rw [test_min hwi hwj] at ht
    have ht' : min (lo sj) (lo si) < x ∧ (x : EReal) < min (hi sj) (hi si) := by rwa [min_comm, min_comm (hi sj)]
    rw [pairMin, half_min hP hwi hwj hdi e3 e4 ht fun t => mul_comm _ _, half_min hP hwj hwi hdj e1 e2 ht' fun t => rfl]
    rfl
  · refine .of_forall fun x ht => ?_
    rw [test_min hwi hwj] at ht
    rw [tk, min_zero hdi ht, min_zero hdj, add_zero]
    rwa [min_comm, min_comm (hi sj)]

theorem pairMax_spec {P : Par} (hP : ExactQ P.q P.qp) {si sj : Seg ℝ} (hwi : si.WF) (hwj : sj.WF) (hdi : si.Dens) (hdj : sj.Dens) :
    PairSpec max (Test max) (pairMax P) (tk Iio) (tailAtoms Iio) si sj := by
  obtain ⟨c1, c2, c3⟩ := tk_law tailMax hdi hdj
  refine ⟨c1, c2, c3, ?_, ?_⟩
  · filter_upwards [ae_ne_end (lo si), ae_ne_end (hi si), ae_ne_end (lo sj), ae_ne_end (hi sj)] with x e1 e2 e3 e4 ht
    rw [test_max hwi hwj] at ht
    have ht' : max (lo sj) (lo si) < x ∧ (x : EReal) < max (hi sj) (hi si) := by rwa [max_comm, max_comm (hi sj)]
    rw [pairMax, half_max hP hwi hwj hdi e3 e4 ht fun t => mul_comm _ _, half_max hP hwj hwi hdj e1 e2 ht' fun t => rfl]
    rfl
  · refine .of_forall fun x ht => ?_
    rw [test_max hwi hwj] at ht
    rw [tk, max_zero hdi ht, max_zero hdj, add_zero]
    rwa [max_comm, max_comm (hi sj)]

end Conv
end Pacal
