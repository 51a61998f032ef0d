import Verif.Conv.SumLemmas

/-! The density of a sum in closed form, and differences. -/

namespace Pacal

/-- the density of the sum of independent variables: the convolution of the densities, and for every atom of one of the
variables the shifted density of the other one -/
noncomputable def sumDensity (f g : PF ℝ) (x : ℝ) : ℝ :=
  (∫ t, f.val t * g.val (x - t)) + (f.atomsOf.map fun p => p.2 * g.val (x - p.1)).sum +
    (g.atomsOf.map fun p => p.2 * f.val (x - p.1)).sum

namespace Conv
open MeasureTheory Set Transform Breaks

theorem den_dirac (a m x : ℝ) : den (.dirac a m) x = 0 := by
  refine den_eq_zero ?_
  rintro ⟨h1, h2⟩
  exact lt_irrefl _ (h1.trans h2)

theorem den_ae (s : Seg ℝ) : (fun x => s.val x) =ᵐ[volume] den s := by
  rcases isDirac_cases s with h | ⟨a, m, rfl⟩
  · exact Seg.val_ae h
  · refine .of_forall fun x => ?_
    dsimp only
    rw [den_dirac, Seg.val, if_neg (by simp [Seg.isDirac])]

/-- density of all pieces -/
noncomputable def dens (l : PF ℝ) (x : ℝ) : ℝ := (l.map fun s => den s x).sum

theorem dens_ae (l : PF ℝ) : (fun x => l.val x) =ᵐ[volume] dens l := by
  induction l with
  | nil => rfl
  | cons s l ih =>
    filter_upwards [ih, den_ae s] with x h1 h2
    show (List.map (Seg.val x) (s :: l)).sum = (List.map (fun s => den s x) (s :: l)).sum
    rw [List.map_cons, List.sum_cons, List.map_cons, List.sum_cons, h2]
    exact congrArg _ h1

theorem pairK_eq (si sj : Seg ℝ) (x : ℝ) :
    pairK si sj x = cint si sj x + si.mass * den sj (x - (lo si).toReal) + sj.mass * den si (x - (lo sj).toReal) := by
  have hc1 : ∀ a m (s : Seg ℝ), cint (.dirac a m) s x = 0 := by intro a m s; simp [cint, den_dirac]
  have hc2 : ∀ a m (s : Seg ℝ), cint s (.dirac a m) x = 0 := by intro a m s; simp [cint, den_dirac]
  have hm : ∀ {s : Seg ℝ}, s.isDirac = false → s.mass = 0 := by
    intro s hs; cases s <;> first | rfl | simp [Seg.isDirac] at hs
  rcases isDirac_cases si with hi' | ⟨a, m, rfl⟩ <;> rcases isDirac_cases sj with hj | ⟨b, n, rfl⟩
  · rw [pairK, if_pos ⟨hi', hj⟩, hm hi', hm hj]; ring
  · rw [pairK_right hi', hc2, hm hi']; simp only [zero_mul, zero_add]; rfl
  · rw [pairK_left hj, hc1, hm hj]; simp only [zero_mul, zero_add, add_zero]; rfl
  · rw [hc1, den_dirac, den_dirac]; simp [pairK, Seg.isDirac]

theorem atoms_sum (l : PF ℝ) (G : ℝ → ℝ) :
    (l.map fun s => s.mass * G (lo s).toReal).sum = (l.atomsOf.map fun p => p.2 * G p.1).sum := by
  induction l with
  | nil => rfl
  | cons s l ih =>
    have e : PF.atomsOf (s :: l) = PF.atomsOf [s] ++ PF.atomsOf l := by
      rw [PF.atomsOf, PF.atomsOf, PF.atomsOf, ← List.filterMap_append]; rfl
    rw [List.map_cons, List.sum_cons, ih, e, List.map_append, List.sum_append]
    congr 1
    cases s <;> simp [PF.atomsOf, Seg.mass, lo, Seg.lo]
    left; rfl

theorem cint_integrable_all {si sj : Seg ℝ} (hdi : si.Dens) (hdj : sj.Dens) :
    ∀ᵐ x, Integrable fun t => den si t * den sj (x - t) := by
  rcases isDirac_cases si with hi' | ⟨a, m, rfl⟩
  · rcases isDirac_cases sj with hj | ⟨b, n, rfl⟩
    · exact (conv_dens hi' hj hdi hdj).1
    · simp [den_dirac]
  · simp [den_dirac]

theorem sum2_mul_left (f g : PF ℝ) (a b : Seg ℝ → ℝ) :
    sum2 f g (fun i j => a i * b j) = (f.map a).sum * (g.map b).sum := by
  unfold sum2
  induction f with
  | nil => simp
  | cons s f ih =>
    simp only [List.map_cons, List.sum_cons, ih, add_mul]
    congr 1
    rw [List.sum_map_mul_left]

theorem sum2_swap_real {M : Type*} [AddCommMonoid M] (f g : PF ℝ) (k : Seg ℝ → Seg ℝ → M) :
    sum2 f g k = sum2 g f fun j i => k i j := by
  unfold sum2
  induction f with
  | nil => simp
  | cons s f ih => simp only [List.map_cons, List.sum_cons, ih, sum_add_map]

theorem integral_list_sum {l : PF ℝ} {F : Seg ℝ → ℝ → ℝ} (h : ∀ s ∈ l, Integrable (F s)) :
    Integrable (fun t => (l.map fun s => F s t).sum) ∧ ∫ t, (l.map fun s => F s t).sum = (l.map fun s => ∫ t, F s t).sum := by
  induction l with
  | nil => simp
  | cons s l ih =>
    obtain ⟨i1, i2⟩ := ih fun t ht => h t (by simp [ht])
    simp only [List.map_cons, List.sum_cons]
    exact ⟨(h s (by simp)).add i1, by rw [integral_add (h s (by simp)) i1, i2]⟩

theorem integral_sum2 {f g : PF ℝ} {F : Seg ℝ → Seg ℝ → ℝ → ℝ} (h : ∀ si ∈ f, ∀ sj ∈ g, Integrable (F si sj)) :
    ∫ t, sum2 f g (fun i j => F i j t) = sum2 f g fun i j => ∫ t, F i j t := by
  unfold sum2
  rw [(integral_list_sum fun si hsi => (integral_list_sum fun sj hsj => h si hsi sj hsj).1).2]
  congr 1
  exact List.map_congr_left fun si hsi => (integral_list_sum fun sj hsj => h si hsi sj hsj).2

theorem sum2_pairK {f g : PF ℝ} (hf : PF.Dens f) (hg : PF.Dens g) :
    ∀ᵐ x, (sum2 f g fun i j => pairK i j x) = sumDensity f g x := by
  have hint := ae_pairs (f := f) (g := g) fun si hsi sj hsj => cint_integrable_all (hf si hsi) (hg sj hsj)
  have shift : ∀ (l : PF ℝ) (a : ℝ), ∀ᵐ x, l.val (x - a) = dens l (x - a) := fun l a =>
    (measurePreserving_sub_right (volume : Measure ℝ) a).quasiMeasurePreserving.ae (dens_ae l)
  have all : ∀ (l L : PF ℝ), ∀ᵐ x, ∀ p ∈ L.atomsOf, l.val (x - p.1) = dens l (x - p.1) := by
    intro l L
    induction L.atomsOf with
    | nil => simp
    | cons p q ih =>
      filter_upwards [ih, shift l p.1] with x h1 h2 p' hp'
      rcases List.mem_cons.1 hp' with rfl | hp'
      · exact h2
      · exact h1 p' hp'
  filter_upwards [hint, all g f, all f g] with x h1 h2 h3
  have e1 : (f.atomsOf.map fun p => p.2 * g.val (x - p.1)).sum = (f.atomsOf.map fun p => p.2 * dens g (x - p.1)).sum := by
    congr 1; exact List.map_congr_left fun p hp => by rw [h2 p hp]
  have e2 : (g.atomsOf.map fun p => p.2 * f.val (x - p.1)).sum = (g.atomsOf.map fun p => p.2 * dens f (x - p.1)).sum := by
    congr 1; exact List.map_congr_left fun p hp => by rw [h3 p hp]
  have e3 : ∫ t, f.val t * g.val (x - t) = sum2 f g fun i j => cint i j x := by
    have : (fun t => f.val t * g.val (x - t)) =ᵐ[volume] fun t => sum2 f g fun i j => den i t * den j (x - t) := by
      have hs := (Measure.measurePreserving_sub_left (volume : Measure ℝ) x).quasiMeasurePreserving.ae (dens_ae g)
      filter_upwards [dens_ae f, hs] with t h4 h5
      rw [h4, h5, sum2_mul_left]
      rfl
    rw [integral_congr_ae this, integral_sum2 h1]
    rfl
  have hk : (sum2 f g fun i j => pairK i j x) = sum2 f g fun i j =>
      (cint i j x + i.mass * den j (x - (lo i).toReal)) + j.mass * den i (x - (lo j).toReal) :=
    sum2_congr fun i _ j _ => pairK_eq i j x
  rw [sumDensity, e1, e2, e3, hk, sum2_add, sum2_add]
  congr 1
  · congr 1
    rw [← atoms_sum f fun a => dens g (x - a)]
    unfold sum2 dens
    congr 1
    refine List.map_congr_left fun s _ => ?_
    rw [List.sum_map_mul_left]
  · rw [← atoms_sum g fun a => dens f (x - a), sum2_swap_real]
    unfold sum2 dens
    congr 1
    refine List.map_congr_left fun s _ => ?_
    rw [List.sum_map_mul_left]

end Conv
end Pacal
