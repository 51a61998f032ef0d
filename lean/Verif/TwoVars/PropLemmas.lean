import Verif.TwoVars.Instances
import Verif.Conv.SumExample

/-! Lemmas for C66: independent variables, limits at real numbers, two resistors in parallel. -/

namespace Pacal
namespace TwoVars
open MeasureTheory Set Transform Conv

theorem val_support {l : PF ℝ} {x : ℝ} (h : l.val x ≠ 0) : ∃ s ∈ l, s.isDirac = false ∧ s.lo ≤ .fin x ∧ .fin x < s.hi := by
  by_contra hc
  push Not at hc
  refine h (List.sum_eq_zero fun y hy => ?_)
  obtain ⟨s, hs, rfl⟩ := List.mem_map.1 hy
  unfold Seg.val
  rw [if_neg]
  rintro ⟨h1, h2, h3⟩
  exact absurd h3 (not_lt.2 (hc s hs h1 h2))

theorem ae_points (l : PF ℝ) : ∀ᵐ x : ℝ, l.val x ≠ 0 → ∃ s ∈ l, x ∈ s.points := by
  have hne : ∀ᵐ x : ℝ, ∀ s ∈ l, s.lo ≠ .fin x := by
    have h1 : ∀ r : EReal, ∀ᵐ z : ℝ, r ≠ (z : EReal) := by
      intro r
      have hsub : ({z : ℝ | r = (z : EReal)}).Subsingleton := by
        intro x hx y hy
        have hx : r = (x : EReal) := hx
        have hy : r = (y : EReal) := hy
        exact EReal.coe_eq_coe_iff.1 (hx.symm.trans hy)
      rw [ae_iff]
      simpa using hsub.measure_zero (volume : Measure ℝ)
    induction l with
    | nil => simp
    | cons r l ih =>
      filter_upwards [h1 r.lo, ih] with z a b r' hr'
      rcases List.mem_cons.1 hr' with rfl | h
      · exact a
      · exact b r' h
  filter_upwards [hne] with x hx h
  obtain ⟨s, hs, h1, h2, h3⟩ := val_support h
  refine ⟨s, hs, ?_⟩
  rw [points_not h1]
  exact ⟨lt_of_le_of_ne h2 (hx s hs), h3⟩

/-- independent variables have a joint density -/
theorem joint_indep {f g : PF ℝ} (hf : PF.Dens f) (hg : PF.Dens g) (hf0 : ∀ x, 0 ≤ f.val x) (hg0 : ∀ x, 0 ≤ g.val x)
    (hfm : Measurable f.val) (hgm : Measurable g.val) : Joint (fun x y => f.val x * g.val y) f g where
  nonneg x y := mul_nonneg (hf0 x) (hg0 y)
  meas := (hfm.comp measurable_fst).mul (hgm.comp measurable_snd)
  int := (PF.val_integrable hf).mul_prod (PF.val_integrable hg)
  supp := by
    have h1 := Measure.quasiMeasurePreserving_fst (μ := (volume : Measure ℝ)) (ν := (volume : Measure ℝ)) |>.ae (ae_points f)
    have h2 := Measure.quasiMeasurePreserving_snd (μ := (volume : Measure ℝ)) (ν := (volume : Measure ℝ)) |>.ae (ae_points g)
    rw [Measure.volume_eq_prod]
    filter_upwards [h1, h2] with w a b hw
    exact ⟨a (left_ne_zero_of_mul hw), b (right_ne_zero_of_mul hw)⟩

theorem jointLaw_indep {op : ℝ → ℝ → ℝ} {f g : PF ℝ} (hf : PF.Dens f) (hg : PF.Dens g) (hf0 : ∀ x, 0 ≤ f.val x)
    (hfc : ∀ s ∈ f, s.isDirac = false) (hgc : ∀ s ∈ g, s.isDirac = false) :
    jointLaw op (fun x y => f.val x * g.val y) = opLaw op (PF.law f) (PF.law g) := by
  have hl : ∀ {l : PF ℝ}, PF.Dens l → (∀ s ∈ l, s.isDirac = false) →
      PF.law l = volume.withDensity fun x => ENNReal.ofReal (l.val x) := by
    intro l h hc
    rw [PF.law_decomp (S := ∅) h fun a m hm => absurd (hc _ hm) (by simp [Seg.isDirac])]
    simp
  rw [jointLaw, opLaw, hl hf hfc, hl hg hgc,
    prod_withDensity₀ (PF.val_integrable hf).aestronglyMeasurable.aemeasurable.ennreal_ofReal
      (PF.val_integrable hg).aestronglyMeasurable.aemeasurable.ennreal_ofReal, Measure.volume_eq_prod]
  congr 2
  funext w
  exact ENNReal.ofReal_mul (hf0 _)

/-- `getUL` at real numbers -/
theorem getUL_real {S : Sym} {a b c d A B C D z : ℝ} (hA : S.cutX c z = .ok (some A)) (hB : S.cutX d z = .ok (some B))
    (hC : S.cutY a z = some C) (hD : S.cutY b z = some D) :
    getUL S a b c d z = .ok (((max a (min (if c < C ∧ C < d then a else min (max A a) (min B b))
      (if c < D ∧ D < d then b else max (max A a) (min B b))) : ℝ) : EReal), ((min b (max (if c < C ∧ C < d then a else min (max A a) (min B b))
      (if c < D ∧ D < d then b else max (max A a) (min B b))) : ℝ) : EReal)) := by
  classical
  have hmin : ∀ x y : ℝ, ((min x y : ℝ) : EReal) = min (x : EReal) y := fun x y => EReal.coe_strictMono.monotone.map_min
  have hmax : ∀ x y : ℝ, ((max x y : ℝ) : EReal) = max (x : EReal) y := fun x y => EReal.coe_strictMono.monotone.map_max
  rw [getUL_eq hA hB hC hD rfl rfl]
  simp only [hmin, hmax, EReal.coe_lt_coe_iff]
  split_ifs <;> simp only [hmin, hmax]

theorem parallel_cut {y z : ℝ} (h : y ≠ z) : parallel.cutX y z = .ok (some ((y * z / (y - z) : ℝ) : EReal)) ∧
    parallel.cutY y z = some ((y * z / (y - z) : ℝ) : EReal) := by
  constructor
  · show Except.ok (if _ then _ else _) = _
    rw [if_neg (by rwa [EReal.toReal_coe]), EReal.toReal_coe]
  · show (if _ then _ else _) = _
    rw [if_neg (by rwa [EReal.toReal_coe]), EReal.toReal_coe]

theorem getUL_parallel {a b c d z : ℝ} (ha : a ≠ z) (hb : b ≠ z) (hc : c ≠ z) (hd : d ≠ z) {A B C D : ℝ}
    (hA : A = c * z / (c - z)) (hB : B = d * z / (d - z)) (hC : C = a * z / (a - z)) (hD : D = b * z / (b - z)) :
    getUL parallel a b c d z = .ok (((max a (min (if c < C ∧ C < d then a else min (max A a) (min B b))
      (if c < D ∧ D < d then b else max (max A a) (min B b))) : ℝ) : EReal), ((min b (max (if c < C ∧ C < d then a else min (max A a) (min B b))
      (if c < D ∧ D < d then b else max (max A a) (min B b))) : ℝ) : EReal)) := by
  subst hA hB hC hD
  exact getUL_real (parallel_cut hc).1 (parallel_cut hd).1 (parallel_cut ha).2 (parallel_cut hb).2

end TwoVars
end Pacal
