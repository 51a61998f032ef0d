import Verif.Law.Integrals

/-! The measure of a piecewise function is determined by its values and its point masses. -/

namespace Pacal
open MeasureTheory Set

theorem PF.val_cons (s : Seg ℝ) (l : PF ℝ) (x : ℝ) : PF.val (s :: l) x = s.val x + PF.val l x := by simp [PF.val]
theorem PF.massAt_cons (s : Seg ℝ) (l : PF ℝ) (x : ℝ) : PF.massAt (s :: l) x = s.massAt x + PF.massAt l x := by
  simp [PF.massAt]

theorem dirac_val (a m x : ℝ) : (Seg.dirac a m).val x = 0 := by simp [Seg.val, Seg.isDirac]

theorem val_nonneg {s : Seg ℝ} (hd : s.Dens) : ∀ᵐ x, 0 ≤ s.val x := by
  cases h : s.isDirac
  · exact ((Seg.dens_of_not h).1 hd).1
  · simp [Seg.val, h]

theorem val_integrable {s : Seg ℝ} (hd : s.Dens) : Integrable (fun x => s.val x) volume := by
  cases h : s.isDirac
  · exact ((Seg.dens_of_not h).1 hd).2
  · have : (fun x => s.val x) = fun _ => 0 := by funext x; simp [Seg.val, h]
    rw [this]; exact integrable_zero _ _ _

theorem massAt_nonneg {s : Seg ℝ} (hd : s.Dens) (x : ℝ) : 0 ≤ s.massAt x := by
  cases s with
  | dirac a m =>
    simp only [Seg.massAt]
    split_ifs
    · exact hd
    · exact le_rfl
  | _ => exact le_rfl

theorem PF.val_nonneg : ∀ {l : PF ℝ}, PF.Dens l → ∀ᵐ x, 0 ≤ l.val x
  | [], _ => by simp [PF.val]
  | s :: l, h => by
    filter_upwards [Pacal.val_nonneg (PF.dens_cons.1 h).1, PF.val_nonneg (PF.dens_cons.1 h).2] with x h1 h2
    rw [PF.val_cons]
    exact add_nonneg h1 h2

theorem PF.massAt_nonneg : ∀ {l : PF ℝ}, PF.Dens l → ∀ x, 0 ≤ l.massAt x
  | [], _, x => by simp [PF.massAt]
  | s :: l, h, x => by
    rw [PF.massAt_cons]
    exact add_nonneg (Pacal.massAt_nonneg (PF.dens_cons.1 h).1 x) (PF.massAt_nonneg (PF.dens_cons.1 h).2 x)

theorem PF.val_integrable : ∀ {l : PF ℝ}, PF.Dens l → Integrable (fun x => l.val x) volume
  | [], _ => by simp [PF.val]
  | s :: l, h => by
    simp only [PF.val_cons]
    exact (Pacal.val_integrable (PF.dens_cons.1 h).1).add (PF.val_integrable (PF.dens_cons.1 h).2)

/-- density part plus atoms -/
theorem PF.law_decomp : ∀ {l : PF ℝ}, PF.Dens l → ∀ {S : Finset ℝ}, (∀ a m, Seg.dirac a m ∈ l → a ∈ S) →
    PF.law l = volume.withDensity (fun x => ENNReal.ofReal (l.val x)) +
      ∑ x ∈ S, ENNReal.ofReal (l.massAt x) • Measure.dirac x
  | [], _, S, _ => by simp [PF.val, PF.massAt]
  | s :: l, h, S, hS => by
    obtain ⟨hs, hl⟩ := PF.dens_cons.1 h
    rw [PF.law_cons, PF.law_decomp hl (S := S) fun a m ham => hS a m (by simp [ham])]
    have e1 : volume.withDensity (fun x => ENNReal.ofReal (PF.val (s :: l) x)) =
        volume.withDensity (fun x => ENNReal.ofReal (s.val x)) +
          volume.withDensity (fun x => ENNReal.ofReal (PF.val l x)) := by
      ext A hA
      rw [Measure.add_apply, withDensity_apply _ hA, withDensity_apply _ hA, withDensity_apply _ hA,
        ← lintegral_add_left' (Pacal.val_integrable hs).aestronglyMeasurable.aemeasurable.ennreal_ofReal.restrict]
      refine lintegral_congr_ae (ae_restrict_of_ae ?_)
      filter_upwards [Pacal.val_nonneg hs, PF.val_nonneg hl] with x h1 h2
      rw [PF.val_cons, ENNReal.ofReal_add h1 h2]
    have e2 : ∑ x ∈ S, ENNReal.ofReal (PF.massAt (s :: l) x) • Measure.dirac x =
        ∑ x ∈ S, ENNReal.ofReal (s.massAt x) • Measure.dirac x +
          ∑ x ∈ S, ENNReal.ofReal (PF.massAt l x) • Measure.dirac x := by
      rw [← Finset.sum_add_distrib]
      refine Finset.sum_congr rfl fun x _ => ?_
      rw [PF.massAt_cons, ENNReal.ofReal_add (Pacal.massAt_nonneg hs x) (PF.massAt_nonneg hl x), add_smul]
    rw [e1, e2]
    cases hd : s.isDirac
    · have e3 : ∑ x ∈ S, ENNReal.ofReal (s.massAt x) • Measure.dirac x = (0 : Measure ℝ) := by
        refine Finset.sum_eq_zero fun x _ => ?_
        cases s <;> simp_all [Seg.massAt, Seg.isDirac]
      rw [e3, Seg.law_of_not hd, zero_add, add_assoc]
    · cases s <;> simp [Seg.isDirac] at hd
      rename_i a m
      have e3 : ∑ x ∈ S, ENNReal.ofReal ((Seg.dirac a m).massAt x) • Measure.dirac x =
          (Seg.dirac a m).law := by
        rw [Finset.sum_eq_single_of_mem a (hS a m (by simp))]
        · simp [Seg.massAt, Seg.law]
        · intro x _ hx
          simp [Seg.massAt, Ne.symm hx]
      rw [e3]
      have e4 : volume.withDensity (fun x => ENNReal.ofReal ((Seg.dirac a m).val x)) = (0 : Measure ℝ) := by
        simp only [dirac_val, ENNReal.ofReal_zero]
        exact withDensity_zero
      rw [e4, zero_add]
      abel

noncomputable def PF.atomSet (l : PF ℝ) : Finset ℝ :=
  (l.filterMap fun s => match s with
    | .dirac a _ => some a
    | _ => none).toFinset

theorem PF.mem_atomSet {l : PF ℝ} {a m : ℝ} (h : Seg.dirac a m ∈ l) : a ∈ PF.atomSet l := by
  simp only [PF.atomSet, List.mem_toFinset, List.mem_filterMap]
  exact ⟨_, h, rfl⟩

/-- same values and same point masses: same measure -/
theorem PF.law_ext {l r : PF ℝ} (hl : PF.Dens l) (hr : PF.Dens r) (hv : ∀ x, r.val x = l.val x)
    (hm : ∀ x, r.massAt x = l.massAt x) : PF.law r = PF.law l := by
  classical
  rw [PF.law_decomp hl (S := PF.atomSet l ∪ PF.atomSet r) fun a m h => Finset.mem_union_left _ (PF.mem_atomSet h),
    PF.law_decomp hr (S := PF.atomSet l ∪ PF.atomSet r) fun a m h => Finset.mem_union_right _ (PF.mem_atomSet h)]
  simp only [hv, hm]

theorem measurableSet_piece (s : Seg ℝ) : MeasurableSet {x : ℝ | s.lo ≤ .fin x ∧ .fin x < s.hi} := by
  have hx : ∀ x : ℝ, Ext.fin x < Ext.pinf := fun x => WithBot.coe_lt_coe.2 (WithTop.coe_lt_top x)
  have hn : ∀ x : ℝ, Ext.ninf ≤ Ext.fin x := fun x => bot_le
  have hl : ∀ x y : ℝ, Ext.fin x ≤ Ext.fin y ↔ x ≤ y := fun x y => by simp [Ext.fin]
  have hlt : ∀ x y : ℝ, Ext.fin x < Ext.fin y ↔ x < y := fun x y => by simp [Ext.fin]
  cases s <;> simp only [Seg.lo, Seg.hi, hx, hn, hl, hlt, and_true, true_and]
  · exact measurableSet_Ico
  · exact measurableSet_Ico
  · exact measurableSet_Iio
  · exact measurableSet_Ici
  · exact measurableSet_Ico

/-- in a well-formed function each piece has the values of the function on its own interval -/
theorem piece_val {eps : ℝ} {r : PF ℝ} (hw : PF.WF eps r) {s : Seg ℝ} (hs : s ∈ r) (hd : s.isDirac = false) (x : ℝ) :
    s.val x = {x : ℝ | s.lo ≤ .fin x ∧ .fin x < s.hi}.indicator (fun x => r.val x) x := by
  by_cases h : s.lo ≤ .fin x ∧ .fin x < s.hi
  · obtain ⟨l₁, l₂, rfl⟩ := List.append_of_mem hs
    rw [indicator_of_mem (show x ∈ {x : ℝ | s.lo ≤ .fin x ∧ .fin x < s.hi} from h), val_split hw hd h.1 h.2,
      Seg.val, if_pos ⟨hd, h⟩]
  · rw [indicator_of_notMem (show x ∉ {x : ℝ | s.lo ≤ .fin x ∧ .fin x < s.hi} from h), Seg.val,
      if_neg fun hc => h hc.2]

theorem PF.mem_massAt {eps : ℝ} {r : PF ℝ} (he : 0 ≤ eps) (hw : PF.WF eps r) {a m : ℝ} (h : Seg.dirac a m ∈ r) :
    r.massAt a = m := by
  obtain ⟨l₁, l₂, rfl⟩ := List.append_of_mem h
  have key : ∀ t ∈ l₁ ++ l₂, t.massAt a = 0 := by
    intro t ht
    cases t with
    | dirac b n =>
      have hab : eps < |b - a| := by
        rcases List.mem_append.1 ht with ht | ht
        · exact ((wf_append hw).2.2 _ ht _ (by simp)).2 b n a m rfl rfl
        · have := ((List.pairwise_cons.1 (wf_append hw).2.1.sorted).1 _ ht).2 a m b n rfl rfl
          rwa [abs_sub_comm]
      have : b ≠ a := by rintro rfl; simp at hab; exact absurd hab (not_lt.2 he)
      simp [Seg.massAt, this]
    | _ => rfl
  have e : ∀ l' : PF ℝ, (∀ t ∈ l', t.massAt a = 0) → (l'.map (Seg.massAt a)).sum = 0 := by
    intro l' h'
    exact List.sum_eq_zero fun x hx => by
      obtain ⟨t, ht, rfl⟩ := List.mem_map.1 hx
      exact h' t ht
  simp [PF.massAt, e l₁ fun t ht => key t (by simp [ht]), e l₂ fun t ht => key t (by simp [ht]), Seg.massAt]

/-- a well-formed function with nonnegative integrable values and nonnegative masses consists of densities -/
theorem PF.dens_of {eps : ℝ} (he : 0 ≤ eps) {r : PF ℝ} (hw : PF.WF eps r) (h0 : ∀ᵐ x, 0 ≤ r.val x)
    (hi : Integrable (fun x => r.val x) volume) (hm : ∀ x, 0 ≤ r.massAt x) : PF.Dens r := by
  intro s hs
  cases hd : s.isDirac
  · refine (Seg.dens_of_not hd).2 ⟨?_, ?_⟩
    · filter_upwards [h0] with x hx
      rw [piece_val hw hs hd]
      exact indicator_apply_nonneg fun _ => hx
    · have : (fun x => s.val x) = {x : ℝ | s.lo ≤ .fin x ∧ .fin x < s.hi}.indicator fun x => r.val x :=
        funext fun x => piece_val hw hs hd x
      rw [this]
      exact hi.indicator (measurableSet_piece s)
  · cases s <;> simp [Seg.isDirac] at hd
    rename_i a m
    show 0 ≤ m
    rw [← PF.mem_massAt he hw hs]
    exact hm a

theorem measurableSet_ext (a b : Ext ℝ) : MeasurableSet {x : ℝ | a ≤ .fin x ∧ .fin x < b} := by
  have h1 : MeasurableSet {x : ℝ | a ≤ .fin x} := by
    refine (OrdConnected.measurableSet ⟨fun x hx y _ z hz => ?_⟩ : MeasurableSet {x : ℝ | a ≤ .fin x})
    have : Ext.fin x ≤ Ext.fin z := by simpa [Ext.fin] using hz.1
    exact le_trans hx this
  have h2 : MeasurableSet {x : ℝ | .fin x < b} := by
    refine (OrdConnected.measurableSet ⟨fun x _ y hy z hz => ?_⟩ : MeasurableSet {x : ℝ | .fin x < b})
    have : Ext.fin z ≤ Ext.fin y := by simpa [Ext.fin] using hz.2
    exact lt_of_le_of_lt this hy
  exact h1.inter h2

end Pacal
