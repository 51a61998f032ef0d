import Verif.Identity.SpecErr
import Verif.Identity.LemExact

/-!
Lemmas: errors of laws under maps and operations, replaced pieces.
-/

namespace Pacal.Identity
open MeasureTheory ProbabilityTheory Standard Set

/-! ### laws -/

theorem Within.trans {a b : ℝ} {μ ν ρ : Measure ℝ} (h : Within a μ ν) (h' : Within b ν ρ) : Within (a + b) μ ρ := fun S hS =>
  (abs_sub_le _ (ν.real S) _).trans (add_le_add (h S hS) (h' S hS))

theorem Within.mono {a b : ℝ} {μ ν : Measure ℝ} (h : Within a μ ν) (hab : a ≤ b) : Within b μ ν := fun S hS => (h S hS).trans hab

theorem Within.map {ε : ℝ} {μ ν : Measure ℝ} (h : Within ε μ ν) {g : ℝ → ℝ} (hg : Measurable g) : Within ε (μ.map g) (ν.map g) := by
  intro S hS
  rw [map_measureReal_apply hg hS, map_measureReal_apply hg hS]
  exact h _ (hg hS)

theorem prod_real {μ ν : Measure ℝ} [IsFiniteMeasure μ] [IsFiniteMeasure ν] {T : Set (ℝ × ℝ)} (hT : MeasurableSet T) :
    (μ.prod ν).real T = ∫ x, ν.real (Prod.mk x ⁻¹' T) ∂μ := by
  rw [Measure.real, Measure.prod_apply hT, integral_eq_lintegral_of_nonneg_ae (Filter.Eventually.of_forall fun _ => measureReal_nonneg)
    (measurable_measure_prodMk_left hT).ennreal_toReal.aestronglyMeasurable]
  congr 1
  refine lintegral_congr fun x => ?_
  rw [Measure.real, ENNReal.ofReal_toReal (measure_ne_top _ _)]

theorem integrable_section {μ ν : Measure ℝ} [IsFiniteMeasure μ] [IsFiniteMeasure ν] {T : Set (ℝ × ℝ)} (hT : MeasurableSet T) :
    Integrable (fun x => ν.real (Prod.mk x ⁻¹' T)) μ := by
  refine Integrable.of_bound (measurable_measure_prodMk_left hT).ennreal_toReal.aestronglyMeasurable (ν.real univ)
    (Filter.Eventually.of_forall fun x => ?_)
  rw [Real.norm_of_nonneg measureReal_nonneg]
  exact measureReal_mono (subset_univ _)

/-- one factor is exchanged -/
theorem prod_within {b : ℝ} {μ ν ν' : Measure ℝ} [IsFiniteMeasure μ] [IsFiniteMeasure ν] [IsFiniteMeasure ν'] (h : Within b ν' ν)
    {T : Set (ℝ × ℝ)} (hT : MeasurableSet T) : |(μ.prod ν').real T - (μ.prod ν).real T| ≤ b * μ.real univ := by
  rw [prod_real hT, prod_real hT, ← integral_sub (integrable_section hT) (integrable_section hT)]
  have := norm_integral_le_of_norm_le_const (μ := μ) (C := b) (f := fun x => ν'.real (Prod.mk x ⁻¹' T) - ν.real (Prod.mk x ⁻¹' T))
    (Filter.Eventually.of_forall fun x => h _ (measurable_prodMk_left hT))
  simpa using this

theorem Within.op {a b : ℝ} {μ μ' ν ν' : Measure ℝ} [IsProbabilityMeasure μ] [IsProbabilityMeasure ν] [IsFiniteMeasure μ']
    [IsFiniteMeasure ν'] (h : Within a μ' μ) (h' : Within b ν' ν) (op : ℝ → ℝ → ℝ) (hop : Measurable fun p : ℝ × ℝ => op p.1 p.2) :
    Within ((1 + a) * (1 + b) - 1) (opLaw op μ' ν') (opLaw op μ ν) := by
  intro S hS
  have hT := hop hS
  rw [opLaw, opLaw, map_measureReal_apply hop hS, map_measureReal_apply hop hS]
  generalize (fun p : ℝ × ℝ => op p.1 p.2) ⁻¹' S = T at hT
  have h1 := prod_within (μ := μ') h' hT
  have h2 : |(μ'.prod ν).real T - (μ.prod ν).real T| ≤ a := by
    have := prod_within (μ := ν) h (measurable_swap hT)
    rw [probReal_univ, mul_one] at this
    have e : ∀ ρ : Measure ℝ, IsFiniteMeasure ρ → (ν.prod ρ).real (Prod.swap ⁻¹' T) = (ρ.prod ν).real T := by
      intro ρ _
      rw [← Measure.prod_swap, map_measureReal_apply measurable_swap (measurable_swap hT)]
      rfl
    rwa [e _ inferInstance, e _ inferInstance] at this
  have h3 : μ'.real univ ≤ 1 + a := by
    have := (abs_le.1 (h univ MeasurableSet.univ)).2
    rw [probReal_univ (μ := μ)] at this
    linarith
  have hb : 0 ≤ b := (abs_nonneg _).trans (h' univ MeasurableSet.univ)
  have := abs_sub_le ((μ'.prod ν').real T) ((μ'.prod ν).real T) ((μ.prod ν).real T)
  nlinarith

/-! ### replaced pieces -/

variable {s t : Seg ℝ} {l r : PF ℝ}

theorem Redrawn.lo (h : Redrawn s t) : t.lo = s.lo := by cases h <;> rfl
theorem Redrawn.hi (h : Redrawn s t) : t.hi = s.hi := by cases h <;> rfl
theorem Redrawn.isDirac (h : Redrawn s t) : t.isDirac = s.isDirac := by cases h <;> rfl
theorem Redrawn.wf (h : Redrawn s t) (hs : s.WF) : t.WF := by cases h <;> exact hs
theorem Redrawn.dirac {a m : ℝ} (h : Redrawn s (.dirac a m)) : s = .dirac a m := by cases h; rfl
theorem Redrawn.dirac' {a m : ℝ} (h : Redrawn (.dirac a m) t) : t = .dirac a m := by cases h; rfl
theorem Redrawn.const' {a b c : ℝ} (h : Redrawn (.const a b c) t) : t = .const a b c := by cases h; rfl

theorem integrable_val : ∀ {l : PF ℝ}, PF.Dens l → Integrable (fun x => l.val x)
  | [], _ => by simp [PF.val]
  | s :: l, h => by
    obtain ⟨h1, h2⟩ := PF.dens_cons.1 h
    have e : (fun x => PF.val (s :: l) x) = fun x => s.val x + PF.val l x := by funext x; simp [PF.val]
    rw [e]
    refine Integrable.add ?_ (integrable_val h2)
    cases hs : s.isDirac
    · exact ((Seg.dens_of_not hs).1 h1).2
    · have : (fun x => Seg.val x s) = fun _ => 0 := by funext x; cases s <;> simp_all [Seg.val, Seg.isDirac]
      rw [this]; exact integrable_zero _ _ _

theorem Redrawn.law (h : List.Forall₂ Redrawn l r) (hl : PF.Dens l) (hr : PF.Dens r) {S : Set ℝ} (hS : MeasurableSet S) :
    (PF.law r).real S - (PF.law l).real S = ∫ x in S, (PF.val r x - PF.val l x) := by
  induction h with
  | nil => simp [PF.val]
  | @cons s t l r hst hlr ih =>
    obtain ⟨h1, h2⟩ := PF.dens_cons.1 hl
    obtain ⟨h3, h4⟩ := PF.dens_cons.1 hr
    have ih := ih h2 h4
    rw [PF.law_real_cons hl, PF.law_real_cons hr]
    have e : ∀ x, PF.val (t :: r) x - PF.val (s :: l) x = (t.val x - s.val x) + (PF.val r x - PF.val l x) := by
      intro x; simp [PF.val]; ring
    simp only [e]
    have hd := hst.isDirac
    cases hs : s.isDirac
    · rw [hs] at hd
      obtain ⟨-, i1⟩ := (Seg.dens_of_not hs).1 h1
      obtain ⟨-, i2⟩ := (Seg.dens_of_not hd).1 h3
      have j1 : IntegrableOn (fun x => t.val x - s.val x) S := (i2.sub i1).integrableOn
      have j2 : IntegrableOn (fun x => PF.val r x - PF.val l x) S := ((integrable_val h4).sub (integrable_val h2)).integrableOn
      rw [integral_add j1 j2, ← ih,
        integral_sub i2.integrableOn i1.integrableOn, Seg.law_real hs h1 hS, Seg.law_real hd h3 hS]
      ring
    · obtain ⟨a, m, rfl⟩ : ∃ a m, s = .dirac a m := by cases s <;> simp [Seg.isDirac] at hs; exact ⟨_, _, rfl⟩
      cases hst.dirac'
      simp only [sub_self, zero_add]
      rw [← ih]; ring

theorem Redrawn.within {δ : ℝ} (h : List.Forall₂ Redrawn l r) (hl : PF.Dens l) (hr : PF.Dens r)
    (ha : ∫ x, |PF.val r x - PF.val l x| ≤ δ) : Within δ (PF.law r) (PF.law l) := by
  intro S hS
  rw [Redrawn.law h hl hr hS]
  have hi := (integrable_val hr).sub (integrable_val hl)
  refine (abs_integral_le_integral_abs).trans (le_trans ?_ ha)
  exact setIntegral_le_integral hi.abs (Filter.Eventually.of_forall fun x => abs_nonneg _)

theorem Redrawn.symm (h : Redrawn s t) : Redrawn t s := by cases h <;> constructor

theorem redrawn_symm (h : List.Forall₂ Redrawn l r) : List.Forall₂ Redrawn r l := by
  induction h with
  | nil => exact .nil
  | cons h _ ih => exact .cons h.symm ih

theorem redrawn_mem (h : List.Forall₂ Redrawn l r) {t : Seg ℝ} (ht : t ∈ r) : ∃ s ∈ l, Redrawn s t := by
  induction h with
  | nil => simp at ht
  | @cons s u l r hsu _ ih =>
    rcases List.mem_cons.1 ht with rfl | ht
    · exact ⟨s, by simp, hsu⟩
    · obtain ⟨v, hv, e⟩ := ih ht
      exact ⟨v, List.mem_cons_of_mem _ hv, e⟩

theorem redrawn_mem' (h : List.Forall₂ Redrawn l r) {s : Seg ℝ} (hs : s ∈ l) : ∃ t ∈ r, Redrawn s t := by
  induction h with
  | nil => simp at hs
  | @cons u t l r hut _ ih =>
    rcases List.mem_cons.1 hs with rfl | hs
    · exact ⟨t, by simp, hut⟩
    · obtain ⟨v, hv, e⟩ := ih hs
      exact ⟨v, List.mem_cons_of_mem _ hv, e⟩

theorem Redrawn.leftOf {eps : ℝ} {s' t' : Seg ℝ} (h : Redrawn s s') (h' : Redrawn t t') (hl : s.LeftOf eps t) : s'.LeftOf eps t' := by
  refine ⟨by rw [h.hi, h'.lo]; exact hl.1, fun a m a' m' e e' => ?_⟩
  subst e e'
  exact hl.2 a m a' m' h.dirac h'.dirac

theorem redrawn_wf {eps : ℝ} (h : List.Forall₂ Redrawn l r) (hw : PF.WF eps l) : PF.WF eps r := by
  induction h with
  | nil => exact hw
  | @cons s t l r hst hlr ih =>
    obtain ⟨h1, h2⟩ := List.pairwise_cons.1 hw.sorted
    have w := ih ⟨fun u hu => hw.seg u (List.mem_cons_of_mem _ hu), h2⟩
    refine ⟨fun u hu => ?_, List.pairwise_cons.2 ⟨fun u hu => ?_, w.sorted⟩⟩
    · rcases List.mem_cons.1 hu with rfl | hu
      · exact hst.wf (hw.seg s (by simp))
      · exact w.seg u hu
    · obtain ⟨v, hv, e⟩ := redrawn_mem hlr hu
      exact hst.leftOf e (h1 v hv)

theorem redrawn_noHole (h : List.Forall₂ Redrawn l r) (hl : PF.NoHole l) : PF.NoHole r := by
  intro t ht
  obtain ⟨s, hs, e⟩ := redrawn_mem h ht
  rcases hl s hs with h1 | ⟨u, hu, e'⟩
  · refine .inl fun u hu => ?_
    obtain ⟨v, hv, e'⟩ := redrawn_mem h hu
    rw [e.lo, e'.lo]; exact h1 v hv
  · obtain ⟨v, hv, e''⟩ := redrawn_mem' h hu
    exact .inr ⟨v, hv, by rw [e''.hi, e.lo]; exact e'⟩

theorem redrawn_noHoleRight (h : List.Forall₂ Redrawn l r) (hl : PF.NoHoleRight l) : PF.NoHoleRight r := by
  intro t ht
  obtain ⟨s, hs, e⟩ := redrawn_mem h ht
  rcases hl s hs with h1 | ⟨u, hu, e'⟩
  · refine .inl fun u hu => ?_
    obtain ⟨v, hv, e'⟩ := redrawn_mem h hu
    rw [e.hi, e'.hi]; exact h1 v hv
  · obtain ⟨v, hv, e''⟩ := redrawn_mem' h hu
    exact .inr ⟨v, hv, by rw [e''.lo, e.hi]; exact e'⟩

theorem redrawn_shape {b : Bool} {e : Expr} (h : List.Forall₂ Redrawn l r) (hs : Shape b e l) : Shape b e r := by
  refine ⟨fun hc t ht => ?_, fun hp hn t ht => ?_, fun hg => ⟨redrawn_noHole h (hs.hole hg).1, redrawn_noHoleRight h (hs.hole hg).2⟩⟩
  · obtain ⟨s, hs', e⟩ := redrawn_mem h ht
    rw [e.isDirac]; exact hs.cont hc s hs'
  · obtain ⟨s, hs', e⟩ := redrawn_mem h ht
    rw [e.lo]; exact hs.pos hp hn s hs'

theorem redrawn_table : ∀ {t : List (ℝ × ℝ)} {r : PF ℝ}, List.Forall₂ Redrawn (atomPieces t) r → r = atomPieces t
  | [], _, h => by simpa [atomPieces] using h
  | [p], _, h => by
    simp only [atomPieces] at h ⊢
    obtain ⟨u, r, hu, hr, rfl⟩ := List.forall₂_cons_left_iff.1 h
    rw [hu.dirac', List.forall₂_nil_left_iff.1 hr]
  | p :: q :: t, _, h => by
    simp only [atomPieces] at h ⊢
    obtain ⟨u, r, hu, hr, rfl⟩ := List.forall₂_cons_left_iff.1 h
    obtain ⟨v, r, hv, hr', rfl⟩ := List.forall₂_cons_left_iff.1 hr
    rw [hu.dirac', hv.const', redrawn_table hr']

/-! ### bounds -/

variable {M : Machine} {replace : Expr → PF ℝ → PF ℝ} {δ : Expr → ℝ}

theorem Accurate.nonneg (h : Accurate M replace δ) (e : Expr) : 0 ≤ δ e :=
  (integral_nonneg fun _ => abs_nonneg _).trans (h.area e [] ⟨by simp, by simp⟩ (by simp [PF.Dens]) (by simp [PF.law_nil]))

theorem bound_nonneg (h : ∀ e, 0 ≤ δ e) : ∀ e, 0 ≤ bound δ e
  | .dist _ | .discrete _ => h _
  | .step s e => add_nonneg (bound_nonneg h e) (h _)
  | .add a b | .sub a b | .mul a b | .div a b | .min a b | .max a b => by
    have h1 := bound_nonneg h a
    have h2 := bound_nonneg h b
    simp only [bound]
    nlinarith [h (.add a b), h (.sub a b), h (.mul a b), h (.div a b), h (.min a b), h (.max a b), mul_nonneg h1 h2]

theorem two_lt {a b c : ℝ} (ha : 0 ≤ a) (hb : 0 ≤ b) (hc : 0 ≤ c) (h : (1 + a) * (1 + b) - 1 + c < 1) : a < 1 ∧ b < 1 := by
  constructor <;> nlinarith [mul_nonneg ha hb]

theorem within_ne {ε : ℝ} {μ : Measure ℝ} [IsProbabilityMeasure μ] (h : Within ε (PF.law r) μ) (h1 : ε < 1) : r ≠ [] := by
  rintro rfl
  have := (abs_le.1 (h univ MeasurableSet.univ)).1
  rw [PF.law_nil, probReal_univ (μ := μ)] at this
  simp at this
  linarith

theorem within_alive {ε : ℝ} {μ : Measure ℝ} [IsProbabilityMeasure μ] (h : Within ε (PF.law r) μ) (h1 : ε < 1) (hc : ContPF r) :
    PF.law r {0}ᶜ ≠ 0 := by
  intro h0
  have h2 : PF.law r univ = 0 := by
    rw [← union_compl_self {(0 : ℝ)}]
    exact measure_union_null (cont_zero hc) h0
  have := (abs_le.1 (h univ MeasurableSet.univ)).1
  rw [Measure.real, h2, probReal_univ (μ := μ)] at this
  simp at this
  linarith

theorem nodes_prob : ∀ {e : Expr}, NodesOK M replace e → IsProbabilityMeasure (exprLaw e)
  | .dist k, h => kind_prob h.1 h.2
  | .discrete t, h => table_prob h
  | .step s e, h => by
    have := nodes_prob h.1
    exact Measure.isProbabilityMeasure_map (measurable_stepFn s).aemeasurable
  | .add a b, h => by
    have := nodes_prob h.1; have := nodes_prob h.2.1
    exact opLaw_prob (by fun_prop) _ _
  | .sub a b, h => by
    have := nodes_prob h.1; have := nodes_prob h.2.1
    exact opLaw_prob (by fun_prop) _ _
  | .mul a b, h => by
    have := nodes_prob h.1; have := nodes_prob h.2.1
    exact opLaw_prob (by fun_prop) _ _
  | .div a b, h => by
    have := nodes_prob h.1; have := nodes_prob h.2.1
    exact opLaw_prob (by fun_prop) _ _
  | .min a b, h => by
    have := nodes_prob h.1; have := nodes_prob h.2.1
    exact opLaw_prob (by fun_prop) _ _
  | .max a b, h => by
    have := nodes_prob h.1; have := nodes_prob h.2.1
    exact opLaw_prob (by fun_prop) _ _

/-- the result of a node is replaced -/
theorem replace_ok (hA : Accurate M replace δ) (e : Expr) (hw : PF.WF M.env.eps l) (hd : PF.Dens l) {ε : ℝ} {μ : Measure ℝ}
    [IsProbabilityMeasure μ] (h : Within ε (PF.law l) μ) (hε : ε + δ e < 1) : PF.WF M.env.eps (replace e l) ∧ PF.Dens (replace e l) ∧
      Within (ε + δ e) (PF.law (replace e l)) μ := by
  have h2 : (PF.law l).real univ ≤ 2 := by
    have := (abs_le.1 (h univ MeasurableSet.univ)).2
    rw [probReal_univ (μ := μ)] at this
    linarith [hA.nonneg e]
  have hd' := hA.dens e l hw hd h2
  exact ⟨redrawn_wf (hA.pieces e l) hw, hd', ((Redrawn.within (hA.pieces e l) hd hd' (hA.area e l hw hd h2)).trans h).mono
    (add_comm _ _).le⟩

theorem within_eq {μ ν : Measure ℝ} (h : μ = ν) : Within 0 μ ν := fun S _ => by simp [h]

end Pacal.Identity
