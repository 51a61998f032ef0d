import Verif.TwoVars.Cut
import Verif.Conv.DivPair
import Verif.Conv.MinMaxLemmas
import Mathlib.MeasureTheory.Function.JacobianOneDim

/-! The law of a function of two variables, box by box: change of variables on each fibre and Tonelli's theorem; and what
the code computes for a box. -/

namespace Pacal
namespace TwoVars
open MeasureTheory Set Transform Conv

variable {S : Sym} {op p : ℝ → ℝ → ℝ} {X Y : Set ℝ}

/-- the part of the curve `op(x, y) = z` inside the box -/
def fibre (S : Sym) (X Y : Set ℝ) (z : ℝ) : Set ℝ := {x | x ∈ X ∧ S.along x z ∈ Y}

theorem fibre_measurable (hA : Measurable fun w : ℝ × ℝ => S.along w.1 w.2) (hX : MeasurableSet X) (hY : MeasurableSet Y) (z : ℝ) :
    MeasurableSet (fibre S X Y z) :=
  hX.inter ((hA.comp (measurable_id.prodMk measurable_const)) hY)

theorem lintegral_fibre (h : Solves S op X Y) (hA : Measurable fun w : ℝ × ℝ => S.along w.1 w.2) (hY : MeasurableSet Y)
    {x : ℝ} (hx : x ∈ X) (F : ℝ → ENNReal) (w : ℝ → ENNReal) :
    ∫⁻ y in Y, F (op x y) * w y =
      ∫⁻ z, {z | S.along x z ∈ Y}.indicator (fun z => ENNReal.ofReal |S.jac x z| * (F z * w (S.along x z))) z := by
  have hm : MeasurableSet {z | S.along x z ∈ Y} := (hA.comp (measurable_const.prodMk measurable_id)) hY
  have himg : S.along x '' {z | S.along x z ∈ Y} = Y := by
    ext y
    constructor
    · rintro ⟨z, hz, rfl⟩; exact hz
    · intro hy
      have := h.inv x hx y hy
      exact ⟨op x y, by rw [mem_ofPred_eq, this]; exact hy, this⟩
  have hinj : InjOn (S.along x) {z | S.along x z ∈ Y} := by
    intro z hz z' hz' e
    rw [← h.sol x hx z hz, ← h.sol x hx z' hz', e]
  rw [lintegral_indicator hm]
  conv_lhs => rw [← himg]
  rw [lintegral_image_eq_lintegral_abs_deriv_mul hm (fun z hz => (h.der x hx z hz).hasDerivWithinAt) hinj]
  refine setLIntegral_congr_fun hm fun z hz => ?_
  rw [h.sol x hx z hz]

/-- the density of a box -/
noncomputable def kernelE (S : Sym) (p : ℝ → ℝ → ℝ) (X Y : Set ℝ) (z : ℝ) : ENNReal :=
  ∫⁻ x in fibre S X Y z, ENNReal.ofReal (integrand S p z x)

/-- the density of a box -/
noncomputable def kernel (S : Sym) (p : ℝ → ℝ → ℝ) (X Y : Set ℝ) (z : ℝ) : ℝ := ∫ x in fibre S X Y z, integrand S p z x

theorem lintegral_box (h : Solves S op X Y) (hop : Measurable fun w : ℝ × ℝ => op w.1 w.2)
    (hA : Measurable fun w : ℝ × ℝ => S.along w.1 w.2) (hJ : Measurable fun w : ℝ × ℝ => S.jac w.1 w.2)
    (hp : Measurable fun w : ℝ × ℝ => p w.1 w.2) (h0 : ∀ x y, 0 ≤ p x y) (hX : MeasurableSet X) (hY : MeasurableSet Y)
    {F : ℝ → ENNReal} (hF : Measurable F) :
    ∫⁻ w in X ×ˢ Y, F (op w.1 w.2) * ENNReal.ofReal (p w.1 w.2) = ∫⁻ z, F z * kernelE S p X Y z ∧
      Measurable (kernelE S p X Y) := by
  have hG : Measurable fun w : ℝ × ℝ => ENNReal.ofReal (p w.1 (S.along w.1 w.2) * |S.jac w.1 w.2|) := by
    refine (Measurable.mul ?_ ?_).ennreal_ofReal
    · exact hp.comp (measurable_fst.prodMk hA)
    · exact continuous_abs.measurable.comp hJ
  have hE : MeasurableSet {w : ℝ × ℝ | w.1 ∈ X ∧ S.along w.1 w.2 ∈ Y} := (measurable_fst hX).inter (hA hY)
  have hk : ∀ z, kernelE S p X Y z = ∫⁻ x, {w : ℝ × ℝ | w.1 ∈ X ∧ S.along w.1 w.2 ∈ Y}.indicator
      (fun w => ENNReal.ofReal (p w.1 (S.along w.1 w.2) * |S.jac w.1 w.2|)) (x, z) := by
    intro z
    rw [kernelE, ← lintegral_indicator (fibre_measurable hA hX hY z)]
    rfl
  have hM : Measurable (kernelE S p X Y) := by
    rw [funext hk]
    exact (hG.indicator hE).lintegral_prod_left'
  refine ⟨?_, hM⟩
  have hw : Measurable fun w : ℝ × ℝ => F (op w.1 w.2) * ENNReal.ofReal (p w.1 w.2) :=
    (hF.comp hop).mul hp.ennreal_ofReal
  rw [← lintegral_indicator (hX.prod hY), Measure.volume_eq_prod,
    lintegral_prod _ (hw.indicator (hX.prod hY)).aemeasurable]
  have e1 : ∀ x, ∫⁻ y, (X ×ˢ Y).indicator (fun w : ℝ × ℝ => F (op w.1 w.2) * ENNReal.ofReal (p w.1 w.2)) (x, y) =
      ∫⁻ z, F z * {w : ℝ × ℝ | w.1 ∈ X ∧ S.along w.1 w.2 ∈ Y}.indicator
        (fun w => ENNReal.ofReal (p w.1 (S.along w.1 w.2) * |S.jac w.1 w.2|)) (x, z) := by
    intro x
    by_cases hx : x ∈ X
    · have := lintegral_fibre h hA hY hx F (fun y => ENNReal.ofReal (p x y))
      rw [← lintegral_indicator hY] at this
      rw [show (fun y => (X ×ˢ Y).indicator (fun w : ℝ × ℝ => F (op w.1 w.2) * ENNReal.ofReal (p w.1 w.2)) (x, y)) =
        Y.indicator (fun y => F (op x y) * ENNReal.ofReal (p x y)) from ?_, this]
      · refine lintegral_congr fun z => ?_
        by_cases hz : S.along x z ∈ Y
        · rw [indicator_of_mem (by exact hz), indicator_of_mem (by exact ⟨hx, hz⟩), ENNReal.ofReal_mul (h0 _ _)]
          ring
        · rw [indicator_of_notMem (by exact hz), indicator_of_notMem (by exact fun h => hz h.2), mul_zero]
      · funext y
        by_cases hy : y ∈ Y
        · rw [indicator_of_mem (by exact ⟨hx, hy⟩), indicator_of_mem hy]
        · rw [indicator_of_notMem (by exact fun h => hy h.2), indicator_of_notMem hy]
    · have h1 : ∀ y, (X ×ˢ Y).indicator (fun w : ℝ × ℝ => F (op w.1 w.2) * ENNReal.ofReal (p w.1 w.2)) (x, y) = 0 :=
        fun y => indicator_of_notMem (fun h => hx h.1) _
      have h2 : ∀ z, F z * {w : ℝ × ℝ | w.1 ∈ X ∧ S.along w.1 w.2 ∈ Y}.indicator
          (fun w => ENNReal.ofReal (p w.1 (S.along w.1 w.2) * |S.jac w.1 w.2|)) (x, z) = 0 :=
        fun z => by rw [indicator_of_notMem (fun h => hx h.1), mul_zero]
      simp only [h1, h2]
  rw [lintegral_congr e1, lintegral_lintegral_swap]
  · refine lintegral_congr fun z => ?_
    rw [hk, lintegral_const_mul]
    exact (hG.indicator hE).comp (measurable_id.prodMk measurable_const)
  · exact ((hF.comp measurable_snd).mul (hG.indicator hE)).aemeasurable

/-- what the law of a box is -/
theorem box_law (h : Solves S op X Y) (hop : Measurable fun w : ℝ × ℝ => op w.1 w.2)
    (hA : Measurable fun w : ℝ × ℝ => S.along w.1 w.2) (hJ : Measurable fun w : ℝ × ℝ => S.jac w.1 w.2)
    (hp : Measurable fun w : ℝ × ℝ => p w.1 w.2) (h0 : ∀ x y, 0 ≤ p x y) (hi : Integrable fun w : ℝ × ℝ => p w.1 w.2)
    (hX : MeasurableSet X) (hY : MeasurableSet Y) :
    (((volume : Measure (ℝ × ℝ)).withDensity fun w => ENNReal.ofReal (p w.1 w.2)).restrict (X ×ˢ Y)).map
        (fun w => op w.1 w.2) = (volume.withDensity fun z => ENNReal.ofReal (kernel S p X Y z)) ∧
      (∀ z, 0 ≤ kernel S p X Y z) ∧ Integrable (kernel S p X Y) ∧
      (∀ᵐ z, IntegrableOn (integrand S p z) (fibre S X Y z)) := by
  have hn : ∀ z x, 0 ≤ integrand S p z x := fun z x => mul_nonneg (h0 _ _) (abs_nonneg _)
  have hint : ∀ z, Measurable (integrand S p z) := fun z => by
    refine Measurable.mul (hp.comp (measurable_id.prodMk (hA.comp (measurable_id.prodMk measurable_const)))) ?_
    exact continuous_abs.measurable.comp (hJ.comp (measurable_id.prodMk measurable_const))
  obtain ⟨b1, hM⟩ := lintegral_box h hop hA hJ hp h0 hX hY (F := fun _ => 1) measurable_const
  have hfin : ∫⁻ z, kernelE S p X Y z ≠ ⊤ := by
    simp only [one_mul] at b1
    rw [← b1]
    exact ((setLIntegral_le_lintegral _ _).trans_lt hi.lintegral_lt_top).ne
  have hk : ∀ z, kernel S p X Y z = (kernelE S p X Y z).toReal := fun z => by
    rw [kernel, integral_eq_lintegral_of_nonneg_ae (.of_forall (hn z)) (hint z).aestronglyMeasurable]; rfl
  have hae : ∀ᵐ z, ENNReal.ofReal (kernel S p X Y z) = kernelE S p X Y z := by
    filter_upwards [ae_lt_top hM hfin] with z hz
    rw [hk, ENNReal.ofReal_toReal hz.ne]
  refine ⟨?_, fun z => by rw [hk]; exact ENNReal.toReal_nonneg, ?_, ?_⟩
  · ext A hA'
    rw [Measure.map_apply hop hA', withDensity_apply _ hA', Measure.restrict_apply (hop hA'),
      withDensity_apply _ ((hop hA').inter (hX.prod hY)), setLIntegral_congr_fun_ae hA' (hae.mono fun z hz _ => hz)]
    have := (lintegral_box h hop hA hJ hp h0 hX hY (F := A.indicator fun _ => 1) (measurable_const.indicator hA')).1
    rw [← lintegral_indicator hA', ← lintegral_indicator ((hop hA').inter (hX.prod hY))]
    rw [← lintegral_indicator (hX.prod hY)] at this
    refine Eq.trans ?_ (this.trans ?_)
    · refine lintegral_congr fun w => ?_
      by_cases h1 : w ∈ X ×ˢ Y <;> by_cases h2 : op w.1 w.2 ∈ A <;> simp [indicator, h1, h2]
    · refine lintegral_congr fun z => ?_
      by_cases h2 : z ∈ A <;> simp [indicator, h2]
  · rw [funext hk]
    exact integrable_toReal_of_lintegral_ne_top hM.aemeasurable hfin
  · filter_upwards [ae_lt_top hM hfin] with z hz
    refine ⟨(hint z).aestronglyMeasurable, ?_⟩
    rw [hasFiniteIntegral_iff_ofReal (.of_forall (hn z))]
    exact hz

/-! ### what the code computes for a box -/

theorem pairInt_eq {P : Par} (hP : ExactQ P.q P.qp) {si sj : Seg ℝ} (hi : si.isDirac = false) (hj : sj.isDirac = false)
    (hwi : si.WF) (hwj : sj.WF) {z : ℝ} (hc : Cuts S si.lo si.hi sj.lo sj.hi z)
    (hint : IntegrableOn (integrand S p z) (fibre S si.points sj.points z)) :
    pairInt S P p z si sj = .ok (kernel S p si.points sj.points z) := by
  obtain ⟨L, U, h1, h2, h3, h4⟩ := getUL_ok hc (lo_lt_hi hi hwi) (lo_lt_hi hj hwj)
  have hset : {t : ℝ | min U L < t ∧ (t : EReal) < max U L} = fibre S si.points sj.points z := by
    ext t
    rw [mem_ofPred_eq, h4 t, fibre, mem_ofPred_eq, points_not hi, points_not hj]
    exact Iff.rfl
  have hne : min U L ≠ ⊥ ∨ max U L ≠ ⊤ ∨ ¬ min U L < max U L := by
    by_contra hcon
    push Not at hcon
    obtain ⟨c1, c2, c3⟩ := hcon
    have key : ∀ x : ℝ, Conv.lo si < x ∧ (x : EReal) < Conv.hi si := by
      intro x
      exact ((h4 x).1 ⟨by rw [c1]; exact EReal.bot_lt_coe x, by rw [c2]; exact EReal.coe_lt_top x⟩).1
    rcases fin_end si with ⟨r, hr⟩ | ⟨r, hr⟩
    · exact absurd (key r).1 (by rw [hr]; exact lt_irrefl _)
    · exact absurd (key r).2 (by rw [hr]; exact lt_irrefl _)
  have hg : getUL S (Conv.lo si) (Conv.hi si) (Conv.lo sj) (Conv.hi sj) z = .ok (L, U) := h1
  unfold pairInt
  simp only [hg, Bind.bind, Except.bind]
  split_ifs with hlt
  · rw [segint_set hP (by simp) ?_ ?_]
    · rw [hset]; rfl
    · rcases hne with h | h | h
      · exact .inl h
      · exact .inr h
      · exact absurd hlt h
    · rw [hset]; exact hint
  · have : fibre S si.points sj.points z = ∅ := by
      rw [← hset]
      ext t
      simp only [mem_ofPred_eq, mem_empty_iff_false, iff_false]
      rintro ⟨a, b⟩
      exact hlt (a.trans b)
    rw [kernel, this]
    simp

/-! ### the boxes together -/

theorem sum_restrict {α : Type*} [MeasurableSpace α] (ν : Measure α) {E : Seg ℝ → Set α} : ∀ {l : PF ℝ},
    (∀ s ∈ l, MeasurableSet (E s)) → l.Pairwise (fun s t => Disjoint (E s) (E t)) →
    (l.map fun s => ν.restrict (E s)).sum = ν.restrict {w | ∃ s ∈ l, w ∈ E s} ∧ MeasurableSet {w | ∃ s ∈ l, w ∈ E s}
  | [], _, _ => by simp
  | s :: l, hm, hd => by
    obtain ⟨ih, im⟩ := sum_restrict ν (fun t ht => hm t (by simp [ht])) (List.pairwise_cons.1 hd).2
    have he : {w | ∃ t ∈ s :: l, w ∈ E t} = E s ∪ {w | ∃ t ∈ l, w ∈ E t} := by ext w; simp
    refine ⟨?_, he ▸ (hm s (by simp)).union im⟩
    rw [List.map_cons, List.sum_cons, ih, he, Measure.restrict_union _ im]
    refine Set.disjoint_left.2 fun w h1 h2 => ?_
    obtain ⟨t, ht, hw⟩ := h2
    exact Set.disjoint_left.1 ((List.pairwise_cons.1 hd).1 t ht) h1 hw

theorem points_disjoint {eps : ℝ} {f : PF ℝ} (hf : PF.WF eps f) (hc : ∀ s ∈ f, s.isDirac = false) :
    f.Pairwise fun s t => Disjoint s.points t.points := by
  refine hf.sorted.imp_of_mem fun {s t} hs ht h => ?_
  rw [points_not (hc s hs), points_not (hc t ht)]
  refine Set.disjoint_left.2 fun x h1 h2 => ?_
  exact absurd ((h1.2.trans_le h.1).trans h2.1) (lt_irrefl _)

theorem points_measurable {s : Seg ℝ} (h : s.isDirac = false) : MeasurableSet s.points := by
  rw [points_not h]; exact s.measurableSet_inner

theorem boxes {eps : ℝ} {f g : PF ℝ} (hf : PF.WF eps f) (hfc : ∀ s ∈ f, s.isDirac = false) (hg : PF.WF eps g)
    (hgc : ∀ s ∈ g, s.isDirac = false) (μ : Measure (ℝ × ℝ))
    (hs : ∀ᵐ w ∂μ, (∃ s ∈ f, w.1 ∈ s.points) ∧ ∃ s ∈ g, w.2 ∈ s.points) :
    μ = sum2 f g fun si sj => μ.restrict (si.points ×ˢ sj.points) := by
  have inner : ∀ si ∈ f, (g.map fun sj => μ.restrict (si.points ×ˢ sj.points)).sum = μ.restrict (Prod.fst ⁻¹' si.points) := by
    intro si hsi
    have := (sum_restrict (μ.restrict (Prod.fst ⁻¹' si.points)) (E := fun s => Prod.snd ⁻¹' s.points) (l := g)
      (fun s hs => measurable_snd (points_measurable (hgc s hs)))
      ((points_disjoint hg hgc).imp fun h => h.preimage _)).1
    rw [show (fun sj => μ.restrict (si.points ×ˢ sj.points)) =
        fun sj : Seg ℝ => μ.restrict (Prod.snd ⁻¹' sj.points ∩ Prod.fst ⁻¹' si.points) from
        funext fun sj => by rw [Set.prod_eq, Set.inter_comm]]
    rw [List.map_congr_left (g := fun sj : Seg ℝ => (μ.restrict (Prod.fst ⁻¹' si.points)).restrict (Prod.snd ⁻¹' sj.points)), this]
    · refine Measure.restrict_eq_self_of_ae_mem ?_
      exact ae_restrict_of_ae (hs.mono fun w hw => hw.2)
    · intro sj hsj
      rw [Measure.restrict_restrict (measurable_snd (points_measurable (hgc sj hsj)))]
  unfold sum2
  rw [List.map_congr_left inner, (sum_restrict μ (E := fun s => Prod.fst ⁻¹' s.points) (l := f)
      (fun s hs => measurable_fst (points_measurable (hfc s hs)))
      ((points_disjoint hf hfc).imp fun h => h.preimage _)).1, Measure.restrict_eq_self_of_ae_mem]
  exact hs.mono fun w hw => hw.1

theorem map_sum2 {f g : PF ℝ} {m : Seg ℝ → Seg ℝ → Measure (ℝ × ℝ)} {F : ℝ × ℝ → ℝ} (hF : Measurable F) :
    (sum2 f g m).map F = sum2 f g fun si sj => (m si sj).map F := by
  have key : ∀ (l : PF ℝ) (m : Seg ℝ → Measure (ℝ × ℝ)), ((l.map m).sum).map F = (l.map fun s => (m s).map F).sum := by
    intro l m
    induction l with
    | nil => simp
    | cons s l ih => rw [List.map_cons, List.sum_cons, Measure.map_add _ _ hF, ih]; simp
  unfold sum2
  rw [key]
  congr 1
  exact List.map_congr_left fun si _ => key g _

end TwoVars
end Pacal
