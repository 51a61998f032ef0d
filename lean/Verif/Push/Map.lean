import Verif.Law.PropsLaw
import Mathlib.MeasureTheory.Function.JacobianOneDim

/-! Change of variables for one piece, and for a list of pieces assembled by `addSegment`. -/

namespace Pacal
open MeasureTheory Set

/-- the open interval of a piece -/
def Seg.inner (s : Seg ℝ) : Set ℝ := {x | s.lo < .fin x ∧ .fin x < s.hi}

theorem Seg.measurableSet_inner (s : Seg ℝ) : MeasurableSet s.inner := by
  have : s.inner = {x : ℝ | s.lo < .fin x} ∩ {x : ℝ | .fin x < s.hi} := rfl
  rw [this]
  have h : ∀ x y : ℝ, x ≤ y → Ext.fin x ≤ Ext.fin y := fun x y h => by simpa [Ext.fin] using h
  refine MeasurableSet.inter (OrdConnected.measurableSet ⟨fun x hx y _ z hz => ?_⟩)
    (OrdConnected.measurableSet ⟨fun x _ y hy z hz => ?_⟩)
  · exact lt_of_lt_of_le hx (h _ _ hz.1)
  · exact lt_of_le_of_lt (h _ _ hz.2) hy

/-- almost everywhere a piece is its function on its open interval -/
theorem Seg.val_ae {s : Seg ℝ} (hs : s.isDirac = false) :
    (fun x => s.val x) =ᵐ[volume] s.inner.indicator s.fn := by
  have h1 : ∀ x : ℝ, s.lo ≠ .fin x → s.val x = s.inner.indicator s.fn x := by
    intro x hx
    by_cases h : s.lo ≤ .fin x ∧ .fin x < s.hi
    · rw [Seg.val, if_pos ⟨hs, h⟩, indicator_of_mem (show x ∈ s.inner from ⟨lt_of_le_of_ne h.1 hx, h.2⟩)]
    · rw [Seg.val, if_neg fun h' => h h'.2, indicator_of_notMem (show x ∉ s.inner from fun h' => h ⟨h'.1.le, h'.2⟩)]
  have h2 : ({x : ℝ | s.lo = .fin x} : Set ℝ).Subsingleton := by
    intro x hx y hy
    have := Eq.trans (Eq.symm hx) hy
    simpa [Ext.fin] using this
  have h3 : ∀ᵐ x : ℝ, s.lo ≠ .fin x := by
    have : volume {x : ℝ | s.lo = .fin x} = 0 := h2.measure_zero _
    rw [ae_iff]
    simpa using this
  filter_upwards [h3] with x hx using h1 x hx

theorem Seg.law_inner {s : Seg ℝ} (hs : s.isDirac = false) :
    s.law = (volume.restrict s.inner).withDensity fun x => ENNReal.ofReal (s.fn x) := by
  rw [Seg.law_of_not hs, ← withDensity_indicator s.measurableSet_inner]
  refine withDensity_congr_ae ?_
  filter_upwards [Seg.val_ae hs] with x hx
  rw [hx]
  by_cases h : x ∈ s.inner <;> simp [h]

/-- `s.Dens` in terms of the function on the open interval -/
theorem Seg.dens_inner {s : Seg ℝ} (hs : s.isDirac = false) :
    s.Dens ↔ (∀ᵐ x, x ∈ s.inner → 0 ≤ s.fn x) ∧ IntegrableOn s.fn s.inner := by
  rw [Seg.dens_of_not hs, integrable_congr (Seg.val_ae hs), integrable_indicator_iff s.measurableSet_inner]
  refine and_congr_left fun _ => ?_
  constructor
  · intro h
    filter_upwards [h, Seg.val_ae hs] with x h1 h2 h3
    rwa [h2, indicator_of_mem h3] at h1
  · intro h
    filter_upwards [h, Seg.val_ae hs] with x h1 h2
    rw [h2]
    exact indicator_apply_nonneg h1

/-- `t` is the image of the piece `s` under `g`, with inverse `h` and derivative `h'` of the inverse -/
structure ImageOf (s t : Seg ℝ) (g h h' : ℝ → ℝ) : Prop where
  meas : Measurable g
  diff : DifferentiableOn ℝ g s.inner
  deriv : ∀ y ∈ t.inner, HasDerivWithinAt h (h' y) t.inner y
  left : ∀ y ∈ t.inner, h y ∈ s.inner ∧ g (h y) = y
  right : ∀ x ∈ s.inner, g x ∈ t.inner ∧ h (g x) = x
  fn : ∀ y ∈ t.inner, t.fn y = s.fn (h y) * |h' y|

namespace ImageOf
variable {s t : Seg ℝ} {g h h' : ℝ → ℝ}

theorem inj (H : ImageOf s t g h h') : InjOn h t.inner := by
  intro x hx y hy hxy
  rw [← (H.left x hx).2, ← (H.left y hy).2, hxy]

theorem image (H : ImageOf s t g h h') : h '' t.inner = s.inner := by
  ext x
  constructor
  · rintro ⟨y, hy, rfl⟩; exact (H.left y hy).1
  · intro hx; exact ⟨g x, (H.right x hx).1, (H.right x hx).2⟩

theorem law (H : ImageOf s t g h h') (hs : s.isDirac = false) (ht : t.isDirac = false) : t.law = s.law.map g := by
  rw [Seg.law_inner hs, Seg.law_inner ht]
  ext A hA
  rw [Measure.map_apply H.meas hA, withDensity_apply _ hA, withDensity_apply _ (H.meas hA),
    Measure.restrict_restrict hA, Measure.restrict_restrict (H.meas hA)]
  have e : g ⁻¹' A ∩ s.inner = h '' (A ∩ t.inner) := by
    ext x
    constructor
    · rintro ⟨h1, h2⟩
      exact ⟨g x, ⟨h1, (H.right x h2).1⟩, (H.right x h2).2⟩
    · rintro ⟨y, ⟨h1, h2⟩, rfl⟩
      refine ⟨?_, (H.left y h2).1⟩
      rw [mem_preimage, (H.left y h2).2]; exact h1
  rw [e, lintegral_image_eq_lintegral_abs_deriv_mul (hA.inter t.measurableSet_inner)
    (fun y hy => (H.deriv y hy.2).mono inter_subset_right) (H.inj.mono inter_subset_right)]
  refine setLIntegral_congr_fun (hA.inter t.measurableSet_inner) fun y hy => ?_
  show ENNReal.ofReal (t.fn y) = ENNReal.ofReal |h' y| * ENNReal.ofReal (s.fn (h y))
  rw [H.fn y hy.2, ENNReal.ofReal_mul' (abs_nonneg _), mul_comm]

theorem dens (H : ImageOf s t g h h') (hs : s.isDirac = false) (ht : t.isDirac = false) (hd : s.Dens) : t.Dens := by
  rw [Seg.dens_inner hs] at hd
  rw [Seg.dens_inner ht]
  constructor
  · have h1 : volume ({x | ¬ (x ∈ s.inner → 0 ≤ s.fn x)}) = 0 := hd.1
    have h2 : {x | ¬ (x ∈ s.inner → 0 ≤ s.fn x)} ⊆ s.inner := by
      intro x hx
      by_contra hc
      exact hx fun h => absurd h hc
    have h3 := addHaar_image_eq_zero_of_differentiableOn_of_addHaar_eq_zero volume (H.diff.mono h2) h1
    rw [ae_iff]
    refine measure_mono_null ?_ h3
    intro y hy
    have hy' : y ∈ t.inner ∧ t.fn y < 0 := by
      simp only [mem_ofPred_eq] at hy
      push Not at hy
      exact hy
    refine ⟨h y, ?_, (H.left y hy'.1).2⟩
    intro hc
    have := hc (H.left y hy'.1).1
    have h4 := H.fn y hy'.1
    have : 0 ≤ t.fn y := by rw [h4]; exact mul_nonneg this (abs_nonneg _)
    exact absurd hy'.2 (not_lt.2 this)
  · have := hd.2
    rw [← H.image, integrableOn_image_iff_integrableOn_abs_deriv_smul t.measurableSet_inner H.deriv H.inj] at this
    refine this.congr_fun (fun y hy => ?_) t.measurableSet_inner
    show |h' y| • s.fn (h y) = t.fn y
    rw [H.fn y hy, smul_eq_mul, mul_comm]

end ImageOf

theorem dirac_law_map {g : ℝ → ℝ} (hg : Measurable g) (a m : ℝ) : (Seg.dirac (g a) m).law = (Seg.dirac a m).law.map g := by
  simp [Seg.law, Measure.map_smul, Measure.map_dirac' hg]

/-! ### lists -/

theorem PF.val_segs : ∀ (l : PF ℝ) (x : ℝ), PF.val (PF.segs l) x = PF.val l x
  | [], _ => rfl
  | s :: l, x => by
    cases h : s.isDirac
    · simp only [PF.segs, List.filter_cons, h, Bool.not_false, if_true]
      rw [PF.val_cons, PF.val_cons]
      exact congrArg _ (PF.val_segs l x)
    · simp only [PF.segs, List.filter_cons, h, Bool.not_true, Bool.false_eq_true, if_false]
      rw [PF.val_cons]
      simp only [Seg.val, h]
      simpa [PF.segs] using PF.val_segs l x

theorem PF.val_perm {l r : PF ℝ} (h : l.Perm r) (x : ℝ) : PF.val l x = PF.val r x := (h.map _).sum_eq

/-- pieces that do not overlap (atoms may coincide) are assembled to a function with the sum of their measures -/
theorem addAll_law {eps : ℝ} (he : 0 ≤ eps) {ss : List (Seg ℝ)} (hw : ∀ s ∈ ss, s.WF)
    (hc : ss.Pairwise (Seg.Compat eps)) (hd : PF.Dens ss) :
    ∃ r, PF.addAll eps [] ss = some r ∧ PF.WF eps r ∧ PF.Dens r ∧ PF.law r = PF.law ss ∧
      (∀ x, r.val x = PF.val ss x) ∧ (∀ x, r.massAt x = PF.massAt ss x) ∧
      (∀ t ∈ r, t ∈ ss ∨ ∃ a m m', t = .dirac a m ∧ .dirac a m' ∈ ss) := by
  obtain ⟨r, h1, h2, h3, h4, h5⟩ := addAll_compat he ss [] ⟨by simp, List.Pairwise.nil⟩ hw hc (by simp)
  have hv : ∀ x, r.val x = PF.val ss x := by
    intro x
    rw [← PF.val_segs r, PF.val_perm h4, ← PF.val_segs ss]
    simp [PF.segs]
  have hm : ∀ x, r.massAt x = PF.massAt ss x := fun x => by rw [h3]; simp [PF.massAt]
  have hr : PF.Dens r := PF.dens_of he h2 (by simpa only [hv] using PF.val_nonneg hd)
    (by simpa only [hv] using PF.val_integrable hd) (fun x => by rw [hm]; exact PF.massAt_nonneg hd x)
  refine ⟨r, h1, h2, hr, PF.law_ext hd hr hv hm, hv, hm, ?_⟩
  intro t ht
  rcases h5 t ht with h | h | ⟨a, m, m', rfl, h | h⟩
  · simp at h
  · exact .inl h
  · simp at h
  · exact .inr ⟨a, m, m', rfl, h⟩

theorem law_map {g : ℝ → ℝ} (hg : Measurable g) {T : Seg ℝ → Seg ℝ} :
    ∀ {l : PF ℝ}, (∀ s ∈ l, (T s).law = s.law.map g) → PF.law (l.map T) = (PF.law l).map g
  | [], _ => by simp
  | s :: l, h => by
    rw [List.map_cons, PF.law_cons, PF.law_cons, Measure.map_add _ _ hg, h s (by simp), law_map hg fun t ht => h t (by simp [ht])]

/-- a map of pieces that realises a transformation of the variable -/
theorem addAll_map {eps : ℝ} (he : 0 ≤ eps) {l : PF ℝ} {T : Seg ℝ → Seg ℝ} {g : ℝ → ℝ} (hg : Measurable g)
    (hT : ∀ s ∈ l, (T s).WF ∧ (T s).Dens ∧ (T s).law = s.law.map g) (hc : (l.map T).Pairwise (Seg.Compat eps)) :
    ∃ r, PF.addAll eps [] (l.map T) = some r ∧ PF.WF eps r ∧ PF.Dens r ∧ PF.law r = (PF.law l).map g := by
  obtain ⟨r, h1, h2, h3, h4, -⟩ := addAll_law he (ss := l.map T)
    (by simpa using fun s hs => (hT s hs).1) hc (by
      intro t ht
      obtain ⟨s, hs, rfl⟩ := List.mem_map.1 ht
      exact (hT s hs).2.1)
  exact ⟨r, h1, h2, h3, by rw [h4, law_map hg fun s hs => (hT s hs).2.2]⟩

end Pacal
