import Verif.Conv.Spec
import Verif.Conv.Assemble

/-! The law of an operation on independent variables, pair by pair, and the general scheme of all operations. -/

namespace Pacal
namespace Conv
open MeasureTheory Set

/-- double sum over all pairs of pieces -/
def sum2 {K M : Type*} [AddCommMonoid M] (f g : PF K) (k : Seg K → Seg K → M) : M :=
  (f.map fun si => (g.map fun sj => k si sj).sum).sum

theorem sum2_congr {K M : Type*} [AddCommMonoid M] {f g : PF K} {k k' : Seg K → Seg K → M}
    (h : ∀ si ∈ f, ∀ sj ∈ g, k si sj = k' si sj) : sum2 f g k = sum2 f g k' := by
  unfold sum2
  congr 1
  refine List.map_congr_left fun si hsi => ?_
  congr 1
  exact List.map_congr_left fun sj hsj => h si hsi sj hsj

theorem sum_add_map {M : Type*} [AddCommMonoid M] (l : PF ℝ) (a b : Seg ℝ → M) :
    (l.map fun s => a s + b s).sum = (l.map a).sum + (l.map b).sum := by
  induction l with
  | nil => simp
  | cons s l ih => simp only [List.map_cons, List.sum_cons, ih]; abel

theorem sum2_add {M : Type*} [AddCommMonoid M] (f g : PF ℝ) (k k' : Seg ℝ → Seg ℝ → M) :
    sum2 f g (fun i j => k i j + k' i j) = sum2 f g k + sum2 f g k' := by
  unfold sum2
  rw [← sum_add_map]
  congr 1
  refine List.map_congr_left fun si _ => ?_
  exact sum_add_map _ _ _

variable {op : ℝ → ℝ → ℝ}

theorem opLaw_add_left (hop : Measurable fun p : ℝ × ℝ => op p.1 p.2) (μ μ' ν : Measure ℝ) [SFinite μ] [SFinite μ'] [SFinite ν] :
    opLaw op (μ + μ') ν = opLaw op μ ν + opLaw op μ' ν := by
  rw [opLaw, Measure.add_prod, Measure.map_add _ _ hop]; rfl

theorem opLaw_add_right (hop : Measurable fun p : ℝ × ℝ => op p.1 p.2) (μ ν ν' : Measure ℝ) [SFinite μ] [SFinite ν] [SFinite ν'] :
    opLaw op μ (ν + ν') = opLaw op μ ν + opLaw op μ ν' := by
  rw [opLaw, Measure.prod_add, Measure.map_add _ _ hop]; rfl

theorem opLaw_sum (hop : Measurable fun p : ℝ × ℝ => op p.1 p.2) : ∀ {f g : PF ℝ}, PF.Dens f → PF.Dens g →
    opLaw op (PF.law f) (PF.law g) = sum2 f g fun i j => opLaw op i.law j.law
  | [], g, _, _ => by simp [sum2, PF.law, opLaw]
  | s :: f, g, hf, hg => by
    obtain ⟨hs, hf'⟩ := PF.dens_cons.1 hf
    have := Seg.law_finite hs
    have := PF.law_finite hf'
    have := PF.law_finite hg
    rw [PF.law_cons, opLaw_add_left hop, opLaw_sum hop hf' hg]
    have key : ∀ {g : PF ℝ}, PF.Dens g → opLaw op s.law (PF.law g) = (g.map fun j => opLaw op s.law j.law).sum := by
      intro g hg
      induction g with
      | nil => simp [PF.law, opLaw]
      | cons t g ih =>
        obtain ⟨ht, hg'⟩ := PF.dens_cons.1 hg
        have := Seg.law_finite ht
        have := PF.law_finite hg'
        rw [PF.law_cons, opLaw_add_right hop, ih hg', List.map_cons, List.sum_cons]
    rw [key hg]
    simp [sum2]

theorem withDensity_list_sum (l : PF ℝ) {k : Seg ℝ → ℝ → ℝ} (h0 : ∀ s ∈ l, ∀ᵐ x, 0 ≤ k s x) (hi : ∀ s ∈ l, Integrable (k s)) :
    (∀ᵐ x, 0 ≤ (l.map fun s => k s x).sum) ∧ Integrable (fun x => (l.map fun s => k s x).sum) ∧
    volume.withDensity (fun x => ENNReal.ofReal (l.map fun s => k s x).sum) =
      (l.map fun s => volume.withDensity fun x => ENNReal.ofReal (k s x)).sum := by
  induction l with
  | nil => simp
  | cons s l ih =>
    obtain ⟨i1, i2, i3⟩ := ih (fun t ht => h0 t (by simp [ht])) (fun t ht => hi t (by simp [ht]))
    have hs0 := h0 s (by simp)
    have hsi := hi s (by simp)
    simp only [List.map_cons, List.sum_cons]
    refine ⟨?_, hsi.add i2, ?_⟩
    · filter_upwards [hs0, i1] with x h1 h2 using add_nonneg h1 h2
    · rw [← i3]
      ext A hA
      rw [Measure.add_apply, withDensity_apply _ hA, withDensity_apply _ hA, withDensity_apply _ hA,
        ← lintegral_add_left' hsi.aestronglyMeasurable.aemeasurable.ennreal_ofReal.restrict]
      refine lintegral_congr_ae (ae_restrict_of_ae ?_)
      filter_upwards [hs0, i1] with x h1 h2
      rw [ENNReal.ofReal_add h1 h2]

theorem withDensity_sum2 (f g : PF ℝ) {k : Seg ℝ → Seg ℝ → ℝ → ℝ} (h0 : ∀ si ∈ f, ∀ sj ∈ g, ∀ᵐ x, 0 ≤ k si sj x)
    (hi : ∀ si ∈ f, ∀ sj ∈ g, Integrable (k si sj)) :
    (∀ᵐ x, 0 ≤ sum2 f g fun i j => k i j x) ∧ Integrable (fun x => sum2 f g fun i j => k i j x) ∧
    volume.withDensity (fun x => ENNReal.ofReal (sum2 f g fun i j => k i j x)) =
      sum2 f g fun i j => volume.withDensity fun x => ENNReal.ofReal (k i j x) := by
  have hj := fun si hsi => withDensity_list_sum g (k := k si) (h0 si hsi) (hi si hsi)
  obtain ⟨a, b, c⟩ := withDensity_list_sum f (k := fun si x => (g.map fun sj => k si sj x).sum) (fun si hsi => (hj si hsi).1)
    (fun si hsi => (hj si hsi).2.1)
  refine ⟨a, b, ?_⟩
  have e : (fun x => ENNReal.ofReal (sum2 f g fun i j => k i j x)) =
      fun x => ENNReal.ofReal (f.map fun si => (g.map fun sj => k si sj x).sum).sum := rfl
  rw [e, c]
  unfold sum2
  congr 1
  exact List.map_congr_left fun si hsi => (hj si hsi).2.2

theorem sumLoop_eq {h : Seg ℝ → Seg ℝ → Except PyErr ℝ} {k : Seg ℝ → Seg ℝ → ℝ} : ∀ (l : List (Seg ℝ × Seg ℝ)) (I : ℝ),
    (∀ pr ∈ l, h pr.1 pr.2 = .ok (k pr.1 pr.2)) → sumLoop h l I = .ok (I + (l.map fun pr => k pr.1 pr.2).sum)
  | [], I, _ => by simp [sumLoop]
  | pr :: r, I, hl => by
    rw [sumLoop, hl pr (by simp)]
    show sumLoop h r (I + k pr.1 pr.2) = _
    rw [sumLoop_eq r _ fun q hq => hl q (by simp [hq])]
    simp [add_assoc]

theorem mem_pairsBy {K : Type*} {t : Seg K → Seg K → Bool} {f g : PF K} {pr : Seg K × Seg K} :
    pr ∈ pairsBy t f g ↔ pr.1 ∈ f ∧ pr.2 ∈ g ∧ t pr.1 pr.2 = true := by
  obtain ⟨a, b⟩ := pr
  simp only [pairsBy, List.mem_flatMap, List.mem_map, List.mem_filter, Prod.mk.injEq]
  constructor
  · rintro ⟨si, h1, sj, h2, rfl, rfl⟩; exact ⟨h1, h2⟩
  · rintro ⟨h1, h2, h3⟩; exact ⟨a, h1, b, ⟨h2, h3⟩, rfl, rfl⟩

theorem sum_pairsBy {K M : Type*} [AddCommMonoid M] {t : Seg K → Seg K → Bool} (f g : PF K) {k : Seg K → Seg K → M}
    (h : ∀ si ∈ f, ∀ sj ∈ g, t si sj = false → k si sj = 0) :
    ((pairsBy t f g).map fun pr => k pr.1 pr.2).sum = sum2 f g k := by
  unfold sum2 pairsBy
  induction f with
  | nil => simp
  | cons s f ih =>
    simp only [List.flatMap_cons, List.map_append, List.sum_append, List.map_cons, List.sum_cons]
    rw [ih fun si hsi => h si (by simp [hsi])]
    congr 1
    have hs := h s (by simp)
    clear h ih
    induction g with
    | nil => simp
    | cons u g ih =>
      have ih := ih fun sj hsj => hs sj (by simp [hsj])
      cases hu : t s u
      · simp only [List.filter_cons, hu, Bool.false_eq_true, if_false, List.map_cons, List.sum_cons]
        rw [ih, hs u (by simp) hu, zero_add]
      · simp only [List.filter_cons, hu, if_true, List.map_cons, List.sum_cons]
        rw [ih]

/-- what a pair contributes: a density `k` and the atoms `at_`; the code computes `h x i j` for the pairs that pass the
test `t` -/
structure PairSpec (op : ℝ → ℝ → ℝ) (t : ℝ → Seg ℝ → Seg ℝ → Prop) (h : ℝ → Seg ℝ → Seg ℝ → Except PyErr ℝ)
    (k : Seg ℝ → Seg ℝ → ℝ → ℝ) (at_ : Seg ℝ → Seg ℝ → Measure ℝ) (si sj : Seg ℝ) : Prop where
  nonneg : ∀ᵐ x, 0 ≤ k si sj x
  int : Integrable (k si sj)
  law : opLaw op si.law sj.law = (volume.withDensity fun x => ENNReal.ofReal (k si sj x)) + at_ si sj
  eq : ∀ᵐ x, t x si sj → h x si sj = .ok (k si sj x)
  zero : ∀ᵐ x, ¬ t x si sj → k si sj x = 0

open Classical in
/-- the general scheme: the function of the piece around `z` -/
noncomputable def runAt (t : ℝ → Seg ℝ → Seg ℝ → Prop) (h : ℝ → Seg ℝ → Seg ℝ → Except PyErr ℝ) (f g : PF ℝ) (z x : ℝ) : ℝ :=
  valueOf (sumLoop (h x) (pairsBy (fun si sj => decide (t z si sj)) f g) 0)

theorem ae_pairs {f g : PF ℝ} {p : Seg ℝ → Seg ℝ → ℝ → Prop} (h : ∀ si ∈ f, ∀ sj ∈ g, ∀ᵐ x, p si sj x) :
    ∀ᵐ x, ∀ si ∈ f, ∀ sj ∈ g, p si sj x := by
  have : ∀ (l : PF ℝ) {q : Seg ℝ → ℝ → Prop}, (∀ s ∈ l, ∀ᵐ x, q s x) → ∀ᵐ x, ∀ s ∈ l, q s x := by
    intro l q h
    induction l with
    | nil => simp
    | cons s l ih =>
      filter_upwards [h s (by simp), ih fun t ht => h t (by simp [ht])] with x h1 h2 t ht
      rcases List.mem_cons.1 ht with rfl | ht
      · exact h1
      · exact h2 t ht
  exact this f fun si hsi => this g fun sj hsj => h si hsi sj hsj

theorem run_law (hop : Measurable fun p : ℝ × ℝ => op p.1 p.2) {eps : ℝ} (he : 0 ≤ eps) {f g : PF ℝ} (hf : PF.Dens f)
    (hg : PF.Dens g) {t : ℝ → Seg ℝ → Seg ℝ → Prop} {h : ℝ → Seg ℝ → Seg ℝ → Except PyErr ℝ}
    {k : Seg ℝ → Seg ℝ → ℝ → ℝ} {at_ : Seg ℝ → Seg ℝ → Measure ℝ}
    (hs : ∀ si ∈ f, ∀ sj ∈ g, PairSpec op t h k at_ si sj) {brks : List (Ext ℝ)} (hb : brks.Pairwise (· < ·))
    (hn : ∀ a b, [a, b] <:+: brks → ¬ (a = .ninf ∧ b = .pinf))
    (hsame : ∀ a b, [a, b] <:+: brks → ∀ x ∈ interE a b, ∀ si ∈ f, ∀ sj ∈ g, t (mid a b) si sj ↔ t x si sj)
    (hout : ∀ x, ∀ si ∈ f, ∀ sj ∈ g, t x si sj → (∃ a ∈ brks, a < .fin x) ∧ ∃ b ∈ brks, .fin x < b)
    {D : List (Seg ℝ)}
    (hD : ∀ s ∈ D, ∃ a m, s = .dirac a m ∧ 0 ≤ m ∧ ∀ u v, [u, v] <:+: brks → ¬ (u < .fin a ∧ .fin a < v)) (hap : D.Pairwise (Seg.Compat eps))
    (hDl : PF.law D = sum2 f g at_) (pole : ℝ → ℝ → Pole) :
    ∃ r, PF.addAll eps [] (pieces pole (runAt t h f g) brks ++ D) = some r ∧ PF.WF eps r ∧ PF.Dens r ∧
      PF.law r = opLaw op (PF.law f) (PF.law g) ∧ (∀ x, r.massAt x = PF.massAt D x) ∧
      (∀ᵐ x, r.val x = sum2 f g fun i j => k i j x) ∧
      (pieces pole (runAt t h f g) brks ++ D).Pairwise (Seg.Compat eps) ∧ ∀ s ∈ pieces pole (runAt t h f g) brks ++ D, s.WF := by
  obtain ⟨k1, k2, k3⟩ := withDensity_sum2 f g (k := k) (fun si hsi sj hsj => (hs si hsi sj hsj).nonneg)
    (fun si hsi sj hsj => (hs si hsi sj hsj).int)
  have heq := ae_pairs fun si hsi sj hsj => (hs si hsi sj hsj).eq
  have hz := ae_pairs fun si hsi sj hsj => (hs si hsi sj hsj).zero
  obtain ⟨r, r1, r2, r3, r4, r5, r6, r7⟩ := assemble he (pole := pole) (F := runAt t h f g) k1 k2 hb hn
    (by
      intro a b hab
      filter_upwards [heq, hz] with x h1 h2 hx
      have hl : ∀ pr ∈ pairsBy (fun si sj => open Classical in decide (t (mid a b) si sj)) f g,
          h x pr.1 pr.2 = .ok (k pr.1 pr.2 x) := by
        intro pr hpr
        obtain ⟨p1, p2, p3⟩ := mem_pairsBy.1 hpr
        exact h1 _ p1 _ p2 ((hsame a b hab x hx _ p1 _ p2).1 (by simpa using p3))
      rw [runAt, sumLoop_eq (k := fun i j => k i j x) _ _ hl, zero_add, sum_pairsBy (k := fun i j => k i j x)]
      · rfl
      · intro si hsi sj hsj ht
        exact h2 si hsi sj hsj fun hc => by simpa [(hsame a b hab x hx si hsi sj hsj).2 hc] using ht)
    (by
      filter_upwards [hz] with x h2 hx
      by_contra hc
      refine hx ?_
      unfold sum2
      refine List.sum_eq_zero fun y hy => ?_
      obtain ⟨si, hsi, rfl⟩ := List.mem_map.1 hy
      refine List.sum_eq_zero fun y hy => ?_
      obtain ⟨sj, hsj, rfl⟩ := List.mem_map.1 hy
      exact h2 si hsi sj hsj fun ht => hc (hout x si hsi sj hsj ht))
    hD hap
  refine ⟨r, r1, r2, r3, ?_, r5, r6, r7⟩
  rw [r4, k3, hDl, opLaw_sum hop hf hg, ← sum2_add]
  exact sum2_congr fun si hsi sj hsj => (hs si hsi sj hsj).law.symm

end Conv
end Pacal
