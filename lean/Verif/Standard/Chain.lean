import Verif.Standard.Model
import Verif.Segments.Lemmas
import Verif.Law.Lemmas

/-!
Adjacent pieces of one function: the list is built as given and its law has that function as density.
-/

namespace Pacal.Standard
open MeasureTheory

/-- the pieces `l` follow each other without gaps from `lo` to `hi` and agree with `f` almost everywhere -/
inductive Chain (f : ℝ → ℝ) : Ext ℝ → Ext ℝ → PF ℝ → Prop
  | one (s : Seg ℝ) (hd : s.isDirac = false) (hs : s.lo < s.hi)
      (hf : ∀ᵐ x : ℝ, s.lo ≤ .fin x → .fin x < s.hi → s.fn x = f x) : Chain f s.lo s.hi [s]
  | cons (s : Seg ℝ) {hi : Ext ℝ} {l : PF ℝ} (hd : s.isDirac = false) (hs : s.lo < s.hi)
      (hf : ∀ᵐ x : ℝ, s.lo ≤ .fin x → .fin x < s.hi → s.fn x = f x) (hl : Chain f s.hi hi l) :
      Chain f s.lo hi (s :: l)

theorem Chain.lt {f : ℝ → ℝ} {lo hi : Ext ℝ} {l : PF ℝ} (h : Chain f lo hi l) : lo < hi := by
  induction h with
  | one s hd hs hf => exact hs
  | cons s hd hs hf hl ih => exact hs.trans ih

theorem seg_wf_of_lt {s : Seg ℝ} (h : s.lo < s.hi) : s.WF := by
  cases s <;> first | trivial | exact (Ext.fin_lt_fin.1 h)

theorem Chain.bounds {f : ℝ → ℝ} {lo hi : Ext ℝ} {l : PF ℝ} (h : Chain f lo hi l) :
    ∀ s ∈ l, s.isDirac = false ∧ s.lo < s.hi ∧ lo ≤ s.lo ∧ s.hi ≤ hi := by
  induction h with
  | one s hd hs hf => intro t ht; rw [List.mem_singleton] at ht; subst ht; exact ⟨hd, hs, le_refl _, le_refl _⟩
  | cons s hd hs hf hl ih =>
    intro t ht
    rcases List.mem_cons.1 ht with rfl | ht
    · exact ⟨hd, hs, le_refl _, hl.lt.le⟩
    · obtain ⟨h1, h2, h3, h4⟩ := ih t ht
      exact ⟨h1, h2, hs.le.trans h3, h4⟩

theorem Chain.wf {f : ℝ → ℝ} {lo hi : Ext ℝ} {l : PF ℝ} (h : Chain f lo hi l) (eps : ℝ) : PF.WF eps l := by
  refine ⟨fun s hs => seg_wf_of_lt (h.bounds s hs).2.1, ?_⟩
  induction h with
  | one s hd hs hf => simp
  | cons s hd hs hf hl ih =>
    refine List.pairwise_cons.2 ⟨fun t ht => ⟨(hl.bounds t ht).2.2.1, ?_⟩, ih⟩
    intro a m a' m' h1
    rw [h1] at hd
    simp [Seg.isDirac] at hd

theorem Chain.addAll {f : ℝ → ℝ} {lo hi : Ext ℝ} {l : PF ℝ} (h : Chain f lo hi l) {eps : ℝ} (he : 0 ≤ eps) :
    PF.addAll eps [] l = some l := by
  have hw := h.wf eps
  obtain ⟨r, hr, hp, hrw⟩ := addAll_wf he l [] ⟨by simp, by simp⟩ hw.seg
    (hw.sorted.imp fun h => Or.inl h) (by simp)
  rw [hr, wf_perm_unique he hrw hw (by simpa using hp)]

theorem Chain.congr {f g : ℝ → ℝ} {lo hi : Ext ℝ} {l : PF ℝ} (h : Chain f lo hi l)
    (hfg : ∀ x, lo ≤ .fin x → .fin x < hi → f x = g x) : Chain g lo hi l := by
  induction h with
  | one s hd hs hf =>
    refine Chain.one s hd hs ?_
    filter_upwards [hf] with x hx h1 h2
    rw [hx h1 h2, hfg x h1 h2]
  | cons s hd hs hf hl ih =>
    refine Chain.cons s hd hs ?_ (ih fun x h1 h2 => hfg x (hs.le.trans h1) h2)
    filter_upwards [hf] with x hx h1 h2
    rw [hx h1 h2, hfg x h1 (h2.trans hl.lt)]

/-- the interval `[lo, hi)` -/
def ext (lo hi : Ext ℝ) : Set ℝ := {x | lo ≤ .fin x ∧ .fin x < hi}

theorem measurableSet_ext (lo hi : Ext ℝ) : MeasurableSet (ext lo hi) := by
  have : ext lo hi = (fun x : ℝ => (x : EReal)) ⁻¹' Set.Ico (show EReal from lo) (show EReal from hi) := rfl
  rw [this]
  exact measurable_coe_real_ereal measurableSet_Ico

theorem seg_val {s : Seg ℝ} (hd : s.isDirac = false) (x : ℝ) : s.val x = (ext s.lo s.hi).indicator s.fn x := by
  classical
  rw [Set.indicator_apply, Seg.val]
  refine if_congr ?_ rfl rfl
  exact ⟨fun h => h.2, fun h => ⟨hd, h⟩⟩

theorem seg_val_ae {f : ℝ → ℝ} {s : Seg ℝ} (hd : s.isDirac = false)
    (hf : ∀ᵐ x : ℝ, s.lo ≤ .fin x → .fin x < s.hi → s.fn x = f x) :
    ∀ᵐ x : ℝ, s.val x = (ext s.lo s.hi).indicator f x := by
  filter_upwards [hf] with x hx
  rw [seg_val hd]
  by_cases h : x ∈ ext s.lo s.hi
  · rw [Set.indicator_of_mem h, Set.indicator_of_mem h]; exact hx h.1 h.2
  · rw [Set.indicator_of_notMem h, Set.indicator_of_notMem h]

theorem Chain.agree {f : ℝ → ℝ} {lo hi : Ext ℝ} {l : PF ℝ} (h : Chain f lo hi l) :
    ∀ s ∈ l, ∀ᵐ x : ℝ, s.lo ≤ .fin x → .fin x < s.hi → s.fn x = f x := by
  induction h with
  | one s hd hs hf => intro t ht; rw [List.mem_singleton] at ht; subst ht; exact hf
  | cons s hd hs hf hl ih =>
    intro t ht
    rcases List.mem_cons.1 ht with rfl | ht
    · exact hf
    · exact ih t ht

theorem ext_union {a b c : Ext ℝ} (hab : a ≤ b) (hbc : b ≤ c) : ext a c = ext a b ∪ ext b c := by
  ext x
  constructor
  · rintro ⟨h1, h2⟩
    rcases lt_or_ge (Ext.fin x) b with h | h
    · exact Or.inl ⟨h1, h⟩
    · exact Or.inr ⟨h, h2⟩
  · rintro (⟨h1, h2⟩ | ⟨h1, h2⟩)
    · exact ⟨h1, h2.trans_le hbc⟩
    · exact ⟨hab.trans h1, h2⟩

theorem ext_disjoint (a b c : Ext ℝ) : Disjoint (ext a b) (ext b c) := by
  rw [Set.disjoint_left]
  rintro x ⟨_, h2⟩ ⟨h3, _⟩
  exact absurd h3 (not_le.2 h2)

theorem seg_law_eq {f : ℝ → ℝ} {s : Seg ℝ} (hd : s.isDirac = false)
    (hf : ∀ᵐ x : ℝ, s.lo ≤ .fin x → .fin x < s.hi → s.fn x = f x) :
    s.law = (volume.restrict (ext s.lo s.hi)).withDensity fun x => ENNReal.ofReal (f x) := by
  rw [Seg.law_of_not hd, ← withDensity_indicator (measurableSet_ext _ _)]
  refine withDensity_congr_ae ?_
  filter_upwards [seg_val_ae hd hf] with x hx
  rw [hx]
  by_cases h : x ∈ ext s.lo s.hi
  · rw [Set.indicator_of_mem h, Set.indicator_of_mem h]
  · rw [Set.indicator_of_notMem h, Set.indicator_of_notMem h, ENNReal.ofReal_zero]

theorem Chain.law {f : ℝ → ℝ} {lo hi : Ext ℝ} {l : PF ℝ} (h : Chain f lo hi l) :
    PF.law l = (volume.restrict (ext lo hi)).withDensity fun x => ENNReal.ofReal (f x) := by
  induction h with
  | one s hd hs hf => rw [PF.law_cons, show PF.law [] = 0 by simp [PF.law], add_zero, seg_law_eq hd hf]
  | cons s hd hs hf hl ih =>
    rw [PF.law_cons, ih, seg_law_eq hd hf, ext_union hs.le hl.lt.le,
      Measure.restrict_union (ext_disjoint _ _ _) (measurableSet_ext _ _), withDensity_add_measure]

/-- The piecewise function `r` was built, is well formed, all its pieces are densities, and its law is `μ`. -/
def Rep (eps : ℝ) (r : Option (PF ℝ)) (μ : Measure ℝ) : Prop :=
  ∃ l, r = some l ∧ PF.WF eps l ∧ PF.Dens l ∧ PF.law l = μ

theorem Chain.rep {f : ℝ → ℝ} {lo hi : Ext ℝ} {l : PF ℝ} (h : Chain f lo hi l) {eps : ℝ} (he : 0 ≤ eps)
    (hm : AEStronglyMeasurable f (volume.restrict (ext lo hi)))
    (hnn : ∀ᵐ x ∂(volume.restrict (ext lo hi)), 0 ≤ f x) {μ : Measure ℝ} [IsFiniteMeasure μ]
    (hμ : (volume.restrict (ext lo hi)).withDensity (fun x => ENNReal.ofReal (f x)) = μ) :
    Rep eps (PF.addAll eps [] l) μ := by
  refine ⟨l, h.addAll he, h.wf eps, fun s hs => ?_, h.law.trans hμ⟩
  obtain ⟨hd, hlt, hlo, hhi⟩ := h.bounds s hs
  have hae := seg_val_ae hd (h.agree s hs)
  have hsub : ext s.lo s.hi ⊆ ext lo hi := fun x hx => ⟨hlo.trans hx.1, hx.2.trans_le hhi⟩
  have hint : IntegrableOn f (ext lo hi) := by
    refine ⟨hm, ?_⟩
    rw [hasFiniteIntegral_iff_ofReal hnn, ← setLIntegral_univ, ← withDensity_apply _ MeasurableSet.univ, hμ]
    exact measure_lt_top _ _
  rw [Seg.dens_of_not hd]
  constructor
  · rw [ae_restrict_iff' (measurableSet_ext _ _)] at hnn
    filter_upwards [hae, hnn] with x hx hx'
    rw [hx]
    by_cases h : x ∈ ext s.lo s.hi
    · rw [Set.indicator_of_mem h]; exact hx' (hsub h)
    · rw [Set.indicator_of_notMem h]
  · refine Integrable.congr ?_ (Filter.EventuallyEq.symm (f := fun x => s.val x) hae)
    exact (integrable_indicator_iff (measurableSet_ext _ _)).2 (hint.mono_set hsub)

end Pacal.Standard
