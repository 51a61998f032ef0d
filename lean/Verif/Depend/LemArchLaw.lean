import Verif.Depend.LemArch
import Verif.Depend.LemEx
import Verif.Depend.LemProps

/-!
Helper lemmas: the law on the unit square with the density of an Archimedean copula.
-/

open MeasureTheory ProbabilityTheory Set Filter Topology

namespace Pacal.Depend

open Pacal.Copula

variable {g : Gen} {Ω : Type*} [MeasurableSpace Ω] {P : Measure Ω} [IsProbabilityMeasure P] {X Y : Ω → ℝ}

/-- the density of the copula in two variables -/
noncomputable def dens (g : Gen) (x y : ℝ) : ℝ := iteratedDeriv 2 g.inv (g.fi x + g.fi y) * (deriv g.fi x * deriv g.fi y)

/-- the number of the unit interval nearest to `u` -/
noncomputable def clip (u : ℝ) : ℝ := max 0 (min u 1)

theorem clip_mem (u : ℝ) : 0 ≤ clip u ∧ clip u ≤ 1 := ⟨le_max_left _ _, max_le zero_le_one (min_le_right _ _)⟩

theorem dens_nonneg (hg : g.Regular) {x y : ℝ} (hx : 0 < x) (hx1 : x < 1) (hy : 0 < y) (hy1 : y < 1) : 0 ≤ dens g x y :=
  mul_nonneg (inv_second_nonneg hg (add_pos (hg.gen.pos hx hx1) (hg.gen.pos hy hy1)))
    (mul_pos_of_neg_of_neg (fi_deriv_neg hg hx hx1) (fi_deriv_neg hg hy hy1)).le

theorem fi_meas (hg : g.Regular) : Measurable ((Ioo (0 : ℝ) 1).indicator g.fi) := by
  have hc : ContinuousOn g.fi (Ioo 0 1) := fun x hx => (hg.diff_fi x hx.1 hx.2).continuousAt.continuousWithinAt
  have := hc.measurable_piecewise (g := (0 : ℝ → ℝ)) continuousOn_const measurableSet_Ioo
  rwa [piecewise_eq_indicator] at this

theorem inv_meas (hg : g.Regular) : Measurable ((Ioi (0 : ℝ)).indicator g.inv) := by
  have hc : ContinuousOn g.inv (Ioi 0) := fun x hx => (inv_deriv hg hx).continuousAt.continuousWithinAt
  have := hc.measurable_piecewise (g := (0 : ℝ → ℝ)) continuousOn_const measurableSet_Ioi
  rwa [piecewise_eq_indicator] at this

theorem dens_meas (hg : g.Regular) : Measurable fun z : ℝ × ℝ => onSquare (dens g) z.1 z.2 := by
  have h1 := fi_meas hg
  have e : (fun z : ℝ × ℝ => onSquare (dens g) z.1 z.2) = fun z : ℝ × ℝ => onSquare (fun x y =>
      iteratedDeriv 2 g.inv ((Ioo (0 : ℝ) 1).indicator g.fi x + (Ioo (0 : ℝ) 1).indicator g.fi y) * (deriv g.fi x * deriv g.fi y))
        z.1 z.2 := by
    ext z
    unfold onSquare
    split_ifs with h
    · beta_reduce
      rw [indicator_of_mem (mem_Ioo.2 h.1), indicator_of_mem (mem_Ioo.2 h.2), dens]
    · rfl
  rw [e]
  refine onSquare_measurable ?_
  exact ((second_measurable g).comp ((h1.comp measurable_fst).add (h1.comp measurable_snd))).mul
    (((measurable_deriv _).comp measurable_fst).mul ((measurable_deriv _).comp measurable_snd))

theorem inter_clip (u : ℝ) : (Iic u ∩ Ioo 0 1 : Set ℝ) =ᵐ[volume] Ioo 0 (clip u) := by
  have h : (Iio u ∩ Ioo 0 1 : Set ℝ) = Ioo 0 (clip u) := by
    ext x
    simp only [mem_inter_iff, mem_Iio, mem_Ioo, clip]
    constructor
    · rintro ⟨h1, h2, h3⟩; exact ⟨h2, lt_max_of_lt_right (lt_min h1 h3)⟩
    · rintro ⟨h2, h3⟩
      rcases lt_max_iff.1 h3 with h | h
      · linarith
      · exact ⟨(lt_min_iff.1 h).1, h2, (lt_min_iff.1 h).2⟩
  rw [← h]
  exact (Iio_ae_eq_Iic (μ := volume)).symm.inter (ae_eq_refl _)

/-- the law with the density `k` on the unit square -/
noncomputable def squareLaw (k : ℝ → ℝ → ℝ) : Measure (ℝ × ℝ) :=
  (volume : Measure (ℝ × ℝ)).withDensity fun z => ENNReal.ofReal (onSquare k z.1 z.2)

theorem squareLaw_apply {k : ℝ → ℝ → ℝ} (hk : Measurable fun z : ℝ × ℝ => onSquare k z.1 z.2) (u v : ℝ) :
    squareLaw k (Iic u ×ˢ Iic v) = ∫⁻ y in Ioo 0 (clip v), ∫⁻ x in Ioo 0 (clip u), ENNReal.ofReal (k x y) := by
  rw [squareLaw, withDensity_apply _ (measurableSet_Iic.prod measurableSet_Iic), Measure.volume_eq_prod, ← Measure.prod_restrict,
    lintegral_prod_symm _ hk.ennreal_ofReal.aemeasurable]
  have e : ∀ y, ∫⁻ x in Iic u, ENNReal.ofReal (onSquare k x y) =
      (Ioo (0 : ℝ) 1).indicator (fun y => ∫⁻ x in Ioo 0 (clip u), ENNReal.ofReal (k x y)) y := by
    intro y
    by_cases hy : y ∈ Ioo (0 : ℝ) 1
    · rw [indicator_of_mem hy, ← Measure.restrict_congr_set (inter_clip u), inter_comm, ← Measure.restrict_restrict measurableSet_Ioo,
        ← lintegral_indicator measurableSet_Ioo]
      refine lintegral_congr fun x => ?_
      by_cases hx : x ∈ Ioo (0 : ℝ) 1
      · rw [indicator_of_mem hx, onSquare, if_pos ⟨hx, hy⟩]
      · rw [indicator_of_notMem hx, onSquare, if_neg fun h => hx h.1, ENNReal.ofReal_zero]
    · rw [indicator_of_notMem hy]
      have : ∀ x, ENNReal.ofReal (onSquare k x y) = 0 := fun x => by
        rw [onSquare, if_neg fun h => hy h.2, ENNReal.ofReal_zero]
      simp only [this, lintegral_zero]
  simp only [e]
  rw [lintegral_indicator measurableSet_Ioo, Measure.restrict_restrict measurableSet_Ioo, inter_comm,
    Measure.restrict_congr_set (inter_clip v)]

theorem val_two (hg : g.Regular) {u v : ℝ} (hu : 0 < u) (hu1 : u ≤ 1) (hv : 0 < v) (hv1 : v ≤ 1) :
    g.val [u, v] = g.inv (g.fi u + g.fi v) := by
  rw [hg.val_pos (by
    intro x hx
    simp only [List.mem_cons, List.not_mem_nil, or_false] at hx
    rcases hx with rfl | rfl
    · exact ⟨hu, hu1⟩
    · exact ⟨hv, hv1⟩)]
  simp

theorem archLaw_apply (hg : g.Regular) (u v : ℝ) :
    squareLaw (dens g) (Iic u ×ˢ Iic v) = ENNReal.ofReal (g.val [clip u, clip v]) := by
  rw [squareLaw_apply (dens_meas hg)]
  rcases (clip_mem u).1.eq_or_lt with hu | hu
  · rw [← hu, hg.val_zero (by simp)]
    simp
  rcases (clip_mem v).1.eq_or_lt with hv | hv
  · rw [← hv, hg.val_zero (by simp)]
    simp
  rw [val_two hg hu (clip_mem u).2 hv (clip_mem v).2]
  exact arch_density hg hu (clip_mem u).2 hv (clip_mem v).2

theorem val_right (hg : g.Regular) {u : ℝ} (h0 : 0 ≤ u) (h1 : u ≤ 1) : g.val [u, 1] = u := by
  simpa using (hg.copula 2).margins 0 u (by norm_num) h0 h1

theorem val_left (hg : g.Regular) {u : ℝ} (h0 : 0 ≤ u) (h1 : u ≤ 1) : g.val [1, u] = u := by
  simpa using (hg.copula 2).margins 1 u (by norm_num) h0 h1

/-- two laws in the plane with the same distribution function are equal -/
theorem ext_plane {μ ν : Measure (ℝ × ℝ)} [IsFiniteMeasure μ] (hu : μ univ = ν univ)
    (h : ∀ u v, μ (Iic u ×ˢ Iic v) = ν (Iic u ×ˢ Iic v)) : μ = ν := by
  refine ext_of_generate_finite (image2 (· ×ˢ ·) (range Iic) (range Iic)) ?_ (isPiSystem_Iic.prod isPiSystem_Iic) ?_ hu
  · refine (generateFrom_eq_prod (borel_eq_generateFrom_Iic ℝ ▸ BorelSpace.measurable_eq.symm)
      (borel_eq_generateFrom_Iic ℝ ▸ BorelSpace.measurable_eq.symm) ?_ ?_).symm
    · exact ⟨fun n : ℕ => Iic (n : ℝ), fun n => ⟨n, rfl⟩, iUnion_eq_univ_iff.2 fun x => exists_nat_ge x⟩
    · exact ⟨fun n : ℕ => Iic (n : ℝ), fun n => ⟨n, rfl⟩, iUnion_eq_univ_iff.2 fun x => exists_nat_ge x⟩
  · rintro _ ⟨_, ⟨u, rfl⟩, _, ⟨v, rfl⟩, rfl⟩
    exact h u v

theorem squareLaw_univ {k : ℝ → ℝ → ℝ} : squareLaw k univ = squareLaw k (Iic 1 ×ˢ Iic 1) := by
  have hA : MeasurableSet (Iic (1 : ℝ) ×ˢ Iic (1 : ℝ)) := measurableSet_Iic.prod measurableSet_Iic
  have hz : squareLaw k (Iic (1 : ℝ) ×ˢ Iic (1 : ℝ))ᶜ = 0 := by
    rw [squareLaw, withDensity_apply _ hA.compl, ← lintegral_zero (μ := (volume : Measure (ℝ × ℝ)).restrict (Iic (1 : ℝ) ×ˢ Iic (1 : ℝ))ᶜ)]
    refine setLIntegral_congr_fun hA.compl fun z hz => ?_
    rw [onSquare, if_neg fun h => hz ⟨h.1.2.le, h.2.2.le⟩, ENNReal.ofReal_zero]
  rw [← measure_add_measure_compl hA, hz, add_zero]

theorem archLaw_prob (hg : g.Regular) : IsProbabilityMeasure (squareLaw (dens g)) := by
  refine ⟨?_⟩
  rw [squareLaw_univ, archLaw_apply hg, show clip 1 = 1 by simp [clip], val_left hg zero_le_one le_rfl, ENNReal.ofReal_one]

/-- the joint distribution function of the ranks -/
theorem rank_joint_clip (hg : g.Regular) (h : Joins (fun u v => g.val [u, v]) P X Y) (u v : ℝ) :
    P.real {ω | rank P X ω ≤ u ∧ rank P Y ω ≤ v} = g.val [clip u, clip v] := by
  have hz : ∀ {Z : Ω → ℝ}, Measurable Z → Continuous (cdf (P.map Z)) → ∀ {u : ℝ}, u ≤ 0 → P.real {ω | rank P Z ω ≤ u} = 0 := by
    intro Z hZ hc u hu
    have : P {ω | rank P Z ω ≤ u} = 0 :=
      measure_mono_null (fun ω (hω : rank P Z ω ≤ u) => le_antisymm (hω.trans hu) (rank_mem hZ ω).1) (rank_atom hZ hc 0)
    rw [Measure.real, this, ENNReal.toReal_zero]
  have cl0 : ∀ {u : ℝ}, u ≤ 0 → clip u = 0 := fun hu => max_eq_left ((min_le_left _ _).trans hu)
  have cl1 : ∀ {u : ℝ}, 1 ≤ u → clip u = 1 := fun hu => by rw [clip, min_eq_right hu, max_eq_right zero_le_one]
  have cl : ∀ {u : ℝ}, 0 < u → u < 1 → clip u = u := fun h0 h1 => by rw [clip, min_eq_left h1.le, max_eq_right h0.le]
  rcases le_or_gt u 0 with hu | hu
  · rw [cl0 hu, hg.val_zero (by simp)]
    exact le_antisymm ((measureReal_mono fun ω hω => hω.1).trans (hz h.meas.1 h.cont.1 hu).le) measureReal_nonneg
  rcases le_or_gt v 0 with hv | hv
  · rw [cl0 hv, hg.val_zero (by simp)]
    exact le_antisymm ((measureReal_mono fun ω hω => hω.2).trans (hz h.meas.2 h.cont.2 hv).le) measureReal_nonneg
  rcases lt_or_ge u 1 with hu1 | hu1
  · rcases lt_or_ge v 1 with hv1 | hv1
    · rw [cl hu hu1, cl hv hv1]
      exact rank_joint h ⟨hu, hu1⟩ ⟨hv, hv1⟩
    · rw [cl hu hu1, cl1 hv1, val_right hg hu.le hu1.le]
      refine Eq.trans ?_ (rank_real h.meas.1 h.cont.1 hu hu1)
      congr 1
      ext ω
      exact ⟨fun hω => hω.1, fun hω => ⟨hω, (rank_mem h.meas.2 ω).2.trans hv1⟩⟩
  · rcases lt_or_ge v 1 with hv1 | hv1
    · rw [cl hv hv1, cl1 hu1, val_left hg hv.le hv1.le]
      refine Eq.trans ?_ (rank_real h.meas.2 h.cont.2 hv hv1)
      congr 1
      ext ω
      exact ⟨fun hω => hω.2, fun hω => ⟨(rank_mem h.meas.1 ω).2.trans hu1, hω⟩⟩
    · rw [cl1 hu1, cl1 hv1, val_left hg zero_le_one le_rfl, ← probReal_univ (μ := P)]
      congr 1
      exact eq_univ_of_forall fun ω => ⟨(rank_mem h.meas.1 ω).2.trans hu1, (rank_mem h.meas.2 ω).2.trans hv1⟩

/-- the ranks of variables joined by the copula have its density -/
theorem rank_density (hg : g.Regular) (h : Joins (fun u v => g.val [u, v]) P X Y) :
    HasDensity (onSquare (dens g)) P (rank P X) (rank P Y) := by
  have hm : Measurable fun ω => (rank P X ω, rank P Y ω) := (rank_measurable h.meas.1).prodMk (rank_measurable h.meas.2)
  refine ⟨⟨rank_measurable h.meas.1, rank_measurable h.meas.2⟩, dens_meas hg, fun x y => ?_, ?_⟩
  · unfold onSquare
    split_ifs with hxy
    · exact dens_nonneg hg hxy.1.1 hxy.1.2 hxy.2.1 hxy.2.2
    · exact le_rfl
  · have := archLaw_prob hg
    have := Measure.isProbabilityMeasure_map (μ := P) hm.aemeasurable
    change _ = squareLaw (dens g)
    refine ext_plane (by rw [measure_univ, measure_univ]) fun u v => ?_
    rw [archLaw_apply hg, Measure.map_apply hm (measurableSet_Iic.prod measurableSet_Iic), ← rank_joint_clip hg h, ofReal_measureReal]
    rfl

/-- the law of the copula itself -/
theorem arch_joins (hg : g.Regular) :
    ∃ (Q : Measure (ℝ × ℝ)) (_ : IsProbabilityMeasure Q), Joins (fun u v => g.val [u, v]) Q Prod.fst Prod.snd := by
  have hp := archLaw_prob hg
  refine ⟨squareLaw (dens g), hp, ?_⟩
  have u1 : (squareLaw (dens g)) (Iic (1 : ℝ) ×ˢ Iic (1 : ℝ))ᶜ = 0 := by
    rw [measure_compl (measurableSet_Iic.prod measurableSet_Iic) (measure_ne_top _ _), squareLaw_univ, tsub_self]
  have c1 : clip 1 = 1 := by simp [clip]
  have f1 : ∀ u, cdf ((squareLaw (dens g)).map Prod.fst) u = clip u := by
    intro u
    rw [cdf_map_apply measurable_fst, measureReal_congr (t := Iic u ×ˢ Iic 1) ?_, Measure.real, archLaw_apply hg, c1,
      val_right hg (clip_mem u).1 (clip_mem u).2, ENNReal.toReal_ofReal (clip_mem u).1]
    filter_upwards [measure_eq_zero_iff_ae_notMem.1 u1] with z hz
    refine propext ⟨fun h => ⟨h, ?_⟩, fun h => h.1⟩
    exact (not_not.1 hz).2
  have f2 : ∀ u, cdf ((squareLaw (dens g)).map Prod.snd) u = clip u := by
    intro u
    rw [cdf_map_apply measurable_snd, measureReal_congr (t := Iic 1 ×ˢ Iic u) ?_, Measure.real, archLaw_apply hg, c1,
      val_left hg (clip_mem u).1 (clip_mem u).2, ENNReal.toReal_ofReal (clip_mem u).1]
    filter_upwards [measure_eq_zero_iff_ae_notMem.1 u1] with z hz
    refine propext ⟨fun h => ⟨?_, h⟩, fun h => h.2⟩
    exact (not_not.1 hz).1
  have cc : Continuous clip := by unfold clip; fun_prop
  refine ⟨⟨measurable_fst, measurable_snd⟩, ⟨?_, ?_⟩, fun x y => ?_⟩
  · rw [show ⇑(cdf ((squareLaw (dens g)).map Prod.fst)) = clip from funext f1]; exact cc
  · rw [show ⇑(cdf ((squareLaw (dens g)).map Prod.snd)) = clip from funext f2]; exact cc
  · rw [f1, f2]
    change (squareLaw (dens g)).real (Iic x ×ˢ Iic y) = _
    rw [Measure.real, archLaw_apply hg, ENNReal.toReal_ofReal]
    by_cases h0 : (0 : ℝ) ∈ [clip x, clip y]
    · rw [hg.val_zero h0]
    · have hx := (clip_mem x).1.lt_of_ne fun h => h0 (by simp [← h])
      have hy := (clip_mem y).1.lt_of_ne fun h => h0 (by simp [← h])
      rw [val_two hg hx (clip_mem x).2 hy (clip_mem y).2]
      exact (hg.gen.range _ (add_nonneg (hg.gen.nonneg hx (clip_mem x).2) (hg.gen.nonneg hy (clip_mem y).2))).1.le

/-- the integral in `tau_c` -/
theorem tauC_integral (hg : g.Regular) : integrate (fun t => g.fi t / deriv g.fi t) 0 1 =
    -(∫⁻ w in Ioi (0 : ℝ), ENNReal.ofReal w * ENNReal.ofReal (deriv g.inv w ^ 2)).toReal := by
  have hm : AEStronglyMeasurable (fun t => -(g.fi t / deriv g.fi t)) (volume.restrict (Ioo (0 : ℝ) 1)) := by
    have hc : ContinuousOn g.fi (Ioo 0 1) := fun x hx => (hg.diff_fi x hx.1 hx.2).continuousAt.continuousWithinAt
    exact ((hc.aemeasurable measurableSet_Ioo).div (measurable_deriv _).aemeasurable).neg.aestronglyMeasurable
  have hn : ∀ t ∈ Ioo (0 : ℝ) 1, 0 ≤ -(g.fi t / deriv g.fi t) := fun t ht =>
    neg_nonneg.2 (div_nonpos_of_nonneg_of_nonpos (hg.gen.pos ht.1 ht.2).le (fi_deriv_neg hg ht.1 ht.2).le)
  have e := integral_eq_lintegral_of_nonneg_ae ((ae_restrict_mem measurableSet_Ioo).mono hn) hm
  rw [integral_neg] at e
  rw [integrate, intervalIntegral.integral_of_le zero_le_one, integral_Ioc_eq_integral_Ioo, ← neg_neg (∫ t in Ioo (0 : ℝ) 1, g.fi t / deriv g.fi t), e,
    inv_subst hg]
  congr 2
  refine setLIntegral_congr_fun measurableSet_Ioi fun w hw => ?_
  have hw0 : 0 < w := hw
  have h1 := inv_deriv_neg hg hw0
  beta_reduce
  rw [← ENNReal.ofReal_mul (abs_nonneg _), ← ENNReal.ofReal_mul hw0.le, hg.gen.right_inv w hw0.le,
    eq_inv_of_mul_eq_one_left (fi_deriv_mul hg hw0), abs_of_neg h1, div_eq_mul_inv, inv_inv]
  congr 1
  ring

/-- the integral in `ctau` -/
theorem ctau_integral (hg : g.Regular) : integrateIter (fun x y => g.val [x, y] * dens g x y) 0 1 0 1 =
    (∫⁻ t in Ioi (0 : ℝ), ∫⁻ s in Ioi (0 : ℝ), ENNReal.ofReal (g.inv (s + t) * iteratedDeriv 2 g.inv (s + t))).toReal := by
  obtain ⟨F, hF⟩ : ∃ F : ℝ → ℝ → ℝ, F = fun x y => (Ioi (0 : ℝ)).indicator g.inv
    ((Ioo (0 : ℝ) 1).indicator g.fi x + (Ioo (0 : ℝ) 1).indicator g.fi y) * onSquare (dens g) x y := ⟨_, rfl⟩
  have hm : Measurable fun z : ℝ × ℝ => F z.1 z.2 := by
    rw [hF]
    exact ((inv_meas hg).comp (((fi_meas hg).comp measurable_fst).add ((fi_meas hg).comp measurable_snd))).mul (dens_meas hg)
  have hv : ∀ x ∈ Ioo (0 : ℝ) 1, ∀ y ∈ Ioo (0 : ℝ) 1, F x y = g.inv (g.fi x + g.fi y) * dens g x y := by
    intro x hx y hy
    rw [hF]
    beta_reduce
    rw [indicator_of_mem hx, indicator_of_mem hy, indicator_of_mem (mem_Ioi.2 (add_pos (hg.gen.pos hx.1 hx.2) (hg.gen.pos hy.1 hy.2))),
      onSquare, if_pos ⟨hx, hy⟩]
  have h0 : ∀ x ∈ Ioo (0 : ℝ) 1, ∀ y ∈ Ioo (0 : ℝ) 1, 0 ≤ F x y := by
    intro x hx y hy
    rw [hv x hx y hy]
    exact mul_nonneg (hg.gen.range _ (add_pos (hg.gen.pos hx.1 hx.2) (hg.gen.pos hy.1 hy.2)).le).1.le
      (dens_nonneg hg hx.1 hx.2 hy.1 hy.2)
  have e1 : integrateIter (fun x y => g.val [x, y] * dens g x y) 0 1 0 1 = integrateIter F 0 1 0 1 :=
    iter_congr fun x hx y hy => by rw [hv x hx y hy, val_two hg hx.1 hx.2.le hy.1 hy.2.le]
  have e2 : ∫⁻ t in Ioi (0 : ℝ), ∫⁻ s in Ioi (0 : ℝ), ENNReal.ofReal (g.inv (s + t) * iteratedDeriv 2 g.inv (s + t)) =
      ∫⁻ y in Ioo (0 : ℝ) 1, ∫⁻ x in Ioo (0 : ℝ) 1, ENNReal.ofReal (F x y) := by
    have := square_subst hg one_pos le_rfl one_pos le_rfl fun w => ENNReal.ofReal (g.inv w * iteratedDeriv 2 g.inv w)
    rw [hg.gen.one] at this
    rw [this]
    refine setLIntegral_congr_fun measurableSet_Ioo fun y hy => setLIntegral_congr_fun measurableSet_Ioo fun x hx => ?_
    rw [hv x hx y hy, ← ENNReal.ofReal_mul (mul_pos_of_neg_of_neg (fi_deriv_neg hg hx.1 hx.2) (fi_deriv_neg hg hy.1 hy.2)).le, dens]
    congr 1
    ring
  have hfin : ∫⁻ y in Ioo (0 : ℝ) 1, ∫⁻ x in Ioo (0 : ℝ) 1, ENNReal.ofReal (F x y) ≠ ⊤ := by
    rw [← e2]
    intro h
    have := double_sum hg
    rw [h, top_add] at this
    exact ENNReal.ofReal_ne_top this.symm
  have hm2 : Measurable fun y => ∫⁻ x in Ioo (0 : ℝ) 1, ENNReal.ofReal (F x y) := hm.ennreal_ofReal.lintegral_prod_left'
  rw [e1, e2, ← integral_toReal hm2.aemeasurable (ae_lt_top hm2 hfin), integrateIter, intervalIntegral.integral_of_le zero_le_one,
    integral_Ioc_eq_integral_Ioo]
  refine setIntegral_congr_fun measurableSet_Ioo fun y hy => ?_
  rw [intervalIntegral.integral_of_le zero_le_one, integral_Ioc_eq_integral_Ioo, integral_eq_lintegral_of_nonneg_ae]
  · exact (ae_restrict_mem measurableSet_Ioo).mono fun x hx => h0 x hx y hy
  · exact (hm.comp (measurable_id.prodMk measurable_const)).aestronglyMeasurable

theorem ccdf_fun {C : ℝ → ℝ → ℝ} (hC : ∀ u v, archCcdf g 2 [u, v] = .ok (C u v)) : C = fun u v => g.val [u, v] := by
  ext u v
  have := hC u v
  rw [archCcdf_ok (by simp)] at this
  exact (Except.ok.inj this).symm

theorem cpdf_fun {k : ℝ → ℝ → ℝ} (hk : ∀ u v, archCpdf g 2 [u, v] = .ok (k u v)) : k = dens g := by
  ext u v
  have := hk u v
  rw [archCpdf_ok (by simp)] at this
  rw [← Except.ok.inj this, dens]
  simp

/-- the two formulas of Kendall's tau agree -/
theorem tauC_eq (hg : g.Regular) :
    tauC g.fi (deriv g.fi) = 4 * integrateIter (fun x y => g.val [x, y] * dens g x y) 0 1 0 1 - 1 := by
  rw [tauC, tauC_integral hg, ctau_integral hg]
  have h := double_sum hg
  have hA : (∫⁻ t in Ioi (0 : ℝ), ∫⁻ s in Ioi (0 : ℝ), ENNReal.ofReal (g.inv (s + t) * iteratedDeriv 2 g.inv (s + t))) ≠ ⊤ := by
    intro e; rw [e, top_add] at h; exact ENNReal.ofReal_ne_top h.symm
  have hB : (∫⁻ w in Ioi (0 : ℝ), ENNReal.ofReal w * ENNReal.ofReal (deriv g.inv w ^ 2)) ≠ ⊤ := by
    intro e; rw [e, add_top] at h; exact ENNReal.ofReal_ne_top h.symm
  have := congrArg ENNReal.toReal h
  rw [ENNReal.toReal_add hA hB, ENNReal.toReal_ofReal (by norm_num)] at this
  linarith

end Pacal.Depend
