import Verif.Order.LemRank
import Verif.Order.LemCell
import Mathlib.MeasureTheory.Measure.Typeclasses.NoAtoms

/-! The law of two order statistics of an independent sample. -/

open MeasureTheory ProbabilityTheory Set
open scoped ENNReal

namespace Pacal
namespace Order

variable {Ω : Type*} [MeasurableSpace Ω] {P : Measure Ω} [IsProbabilityMeasure P] {μ : Measure ℝ}
  [IsProbabilityMeasure μ] {n : ℕ} {X : Fin n → Ω → ℝ}

theorem measurable_kth (hX : ∀ m, Measurable (X m)) {k : ℕ} {U : Ω → ℝ}
    (hU : ∀ ω, IsKth (fun m => X m ω) k (U ω)) : Measurable U := by
  refine measurable_of_Iic fun t => ?_
  have : U ⁻¹' Iic t = ⋃ T ∈ (Finset.univ : Finset (Fin n)).powerset.filter (fun T => k ≤ T.card),
      ⋂ m ∈ T, X m ⁻¹' Iic t := by
    ext ω
    simp only [mem_preimage, mem_Iic, (hU ω).le_iff t, mem_iUnion, Finset.mem_filter, Finset.mem_powerset,
      Finset.subset_univ, true_and, mem_iInter, exists_prop]
    constructor
    · intro h
      exact ⟨_, h, fun m hm => (Finset.mem_filter.1 hm).2⟩
    · rintro ⟨T, hT, h⟩
      refine hT.trans (Finset.card_le_card fun m hm => Finset.mem_filter.2 ⟨Finset.mem_univ _, h m hm⟩)
  rw [this]
  exact Finset.measurableSet_biUnion _ fun T _ => Finset.measurableSet_biInter _ fun m _ =>
    hX m measurableSet_Iic

theorem pair_law (hX : ∀ m, Measurable (X m)) (hind : iIndepFun X P) (hlaw : ∀ m, P.map (X m) = μ)
    {a b : Fin n} (hab : a ≠ b) : P.map (fun ω => (X a ω, X b ω)) = μ.prod μ := by
  rw [(indepFun_iff_map_prod_eq_prod_map_map (hX a).aemeasurable (hX b).aemeasurable).1
    (hind.indepFun hab), hlaw, hlaw]

/-- no ties -/
theorem injective_ae [NullSingletonClass μ] (hX : ∀ m, Measurable (X m)) (hind : iIndepFun X P)
    (hlaw : ∀ m, P.map (X m) = μ) : ∀ᵐ ω ∂P, Function.Injective fun m => X m ω := by
  have h : ∀ a b : Fin n, a ≠ b → ∀ᵐ ω ∂P, X a ω ≠ X b ω := by
    intro a b hab
    have hm : MeasurableSet {z : ℝ × ℝ | z.1 = z.2} := measurableSet_eq_fun measurable_fst measurable_snd
    have h0 : (μ.prod μ) {z : ℝ × ℝ | z.1 = z.2} = 0 := by
      rw [Measure.measure_prod_null hm]
      refine Filter.Eventually.of_forall fun x => ?_
      have : Prod.mk x ⁻¹' {z : ℝ × ℝ | z.1 = z.2} = {x} := by ext y; simp [eq_comm]
      change μ (Prod.mk x ⁻¹' {z : ℝ × ℝ | z.1 = z.2}) = 0
      rw [this, measure_singleton]
    rw [← pair_law hX hind hlaw hab, Measure.map_apply ((hX a).prodMk (hX b)) hm] at h0
    rw [ae_iff]
    convert h0 using 2
    ext ω; simp
  have : ∀ᵐ ω ∂P, ∀ a b : Fin n, a ≠ b → X a ω ≠ X b ω := by
    rw [ae_all_iff]; intro a
    rw [ae_all_iff]; intro b
    by_cases hab : a = b
    · exact Filter.Eventually.of_forall fun ω c => absurd hab c
    · filter_upwards [h a b hab] with ω hω _ using hω
  filter_upwards [this] with ω hω a b hab
  by_contra hne
  exact hω a b hne hab

theorem measurableSet_cell (c : ℕ) : MeasurableSet {w : (ℝ × ℝ) × ℝ | w.2 ∈
    (if c = 0 then Iio w.1.1 else if c = 1 then Ioo w.1.1 w.1.2 else Ioi w.1.2)} := by
  have m1 : Measurable fun w : (ℝ × ℝ) × ℝ => w.1.1 := by fun_prop
  have m2 : Measurable fun w : (ℝ × ℝ) × ℝ => w.1.2 := by fun_prop
  have m3 : Measurable fun w : (ℝ × ℝ) × ℝ => w.2 := by fun_prop
  split_ifs
  · exact measurableSet_lt m3 m1
  · exact (measurableSet_lt m1 m3).inter (measurableSet_lt m3 m2)
  · exact measurableSet_lt m2 m3

theorem prob_fits (hX : ∀ m, Measurable (X m)) (hind : iIndepFun X P) (hlaw : ∀ m, P.map (X m) = μ)
    {p q : ℕ} {r : Arr n} (hr : r ∈ arrs n p q) {S : Set (ℝ × ℝ)} (hS : MeasurableSet S) :
    P {ω | Fits (fun m => X m ω) r ∧ (X r.1.1 ω, X r.1.2 ω) ∈ S} =
      ∫⁻ z in {z | z ∈ S ∧ z.1 < z.2}, μ (Iio z.1) ^ p * μ (Ioo z.1 z.2) ^ q * μ (Ioi z.2) ^ (n - 2 - p - q)
        ∂(μ.prod μ) := by
  classical
  obtain ⟨⟨a, b⟩, A, B⟩ := r
  obtain ⟨hab, haA, hbA, hp, haB, hbB, hd, hq⟩ := mem_arrs.1 hr
  set T : Finset (Fin n) := Finset.univ \ {a, b} with hT
  have hTmem : ∀ k, k ∈ T ↔ k ≠ a ∧ k ≠ b := by intro k; simp [hT]
  let c : Fin n → ℕ := fun k => if k ∈ A then 0 else if k ∈ B then 1 else 2
  let I : ℕ → ℝ × ℝ → Set ℝ := fun c z => if c = 0 then Iio z.1 else if c = 1 then Ioo z.1 z.2 else Ioi z.2
  have hZT : IndepFun (fun ω => (X a ω, X b ω)) (fun ω (k : T) => X k ω) P := by
    have hdis : Disjoint ({a, b} : Finset (Fin n)) T := Finset.disjoint_sdiff
    have h := hind.indepFun_finset {a, b} T hdis hX
    have hφ : Measurable (fun w : (({a, b} : Finset (Fin n)) → ℝ) =>
        (w ⟨a, by simp⟩, w ⟨b, by simp⟩)) := by fun_prop
    exact h.comp hφ measurable_id
  have hS' : MeasurableSet {z : ℝ × ℝ | z ∈ S ∧ z.1 < z.2} :=
    hS.inter (measurableSet_lt measurable_fst measurable_snd)
  have key := cells hX hind hlaw T ((hX a).prodMk (hX b)) hZT hS' (fun k z => I (c k) z)
    (fun k => measurableSet_cell (c k))
  have hev : {ω | Fits (fun m => X m ω) ⟨(a, b), A, B⟩ ∧ (X a ω, X b ω) ∈ S} =
      {ω | (X a ω, X b ω) ∈ {z : ℝ × ℝ | z ∈ S ∧ z.1 < z.2} ∧ ∀ k : T, X k ω ∈ I (c k) (X a ω, X b ω)} := by
    ext ω
    simp only [Fits, Set.mem_ofPred_eq, I, c]
    constructor
    · rintro ⟨⟨h1, h2⟩, h3⟩
      refine ⟨⟨h3, h1⟩, fun k => ?_⟩
      obtain ⟨ka, kb⟩ := (hTmem k).1 k.2
      have := h2 k ka kb
      split_ifs at this ⊢ <;> simp_all
    · rintro ⟨⟨h3, h1⟩, h2⟩
      refine ⟨⟨h1, fun k ka kb => ?_⟩, h3⟩
      have := h2 ⟨k, (hTmem k).2 ⟨ka, kb⟩⟩
      dsimp only at this
      by_cases k1 : k ∈ A
      · simpa [k1] using this
      · by_cases k2 : k ∈ B
        · simpa [k1, k2] using this
        · simpa [k1, k2] using this
  have e1 : (⟨(a, b), A, B⟩ : Arr n).1.1 = a := rfl
  have e2 : (⟨(a, b), A, B⟩ : Arr n).1.2 = b := rfl
  rw [e1, e2, hev, key, pair_law hX hind hlaw hab]
  refine lintegral_congr fun z => ?_
  have hprod : ∏ k : T, μ (I (c k) z) = ∏ k ∈ T, μ (I (c k) z) :=
    Finset.prod_coe_sort T (fun k => μ (I (c k) z))
  rw [hprod]
  have hAT : A ⊆ T := fun k hk => (hTmem k).2 ⟨fun e => haA (e ▸ hk), fun e => hbA (e ▸ hk)⟩
  have hBT : B ⊆ T \ A := fun k hk => Finset.mem_sdiff.2
    ⟨(hTmem k).2 ⟨fun e => haB (e ▸ hk), fun e => hbB (e ▸ hk)⟩, Finset.disjoint_left.1 hd hk⟩
  have hcT : T.card = n - 2 := by
    rw [hT, Finset.card_sdiff_of_subset (Finset.subset_univ _), Finset.card_univ, Fintype.card_fin,
      Finset.card_pair hab]
  rw [← Finset.prod_sdiff hAT, ← Finset.prod_sdiff hBT]
  have f1 : ∏ k ∈ A, μ (I (c k) z) = μ (Iio z.1) ^ p := by
    rw [← hp]
    apply Finset.prod_eq_pow_card
    intro k hk
    simp [I, c, hk]
  have f2 : ∏ k ∈ B, μ (I (c k) z) = μ (Ioo z.1 z.2) ^ q := by
    rw [← hq]
    apply Finset.prod_eq_pow_card
    intro k hk
    simp [I, c, hk, Finset.disjoint_left.1 hd hk]
  have f3 : ∏ k ∈ (T \ A) \ B, μ (I (c k) z) = μ (Ioi z.2) ^ (n - 2 - p - q) := by
    rw [show n - 2 - p - q = ((T \ A) \ B).card by
      rw [Finset.card_sdiff_of_subset hBT, Finset.card_sdiff_of_subset hAT, hcT, hp, hq]]
    apply Finset.prod_eq_pow_card
    intro k hk
    obtain ⟨k1, k2⟩ := Finset.mem_sdiff.1 hk
    simp [I, c, k2, (Finset.mem_sdiff.1 k1).2]
  rw [f1, f2, f3]
  ring

theorem joint_law [NullSingletonClass μ] (hX : ∀ m, Measurable (X m)) (hind : iIndepFun X P)
    (hlaw : ∀ m, P.map (X m) = μ) {p q : ℕ} {U V : Ω → ℝ}
    (hU : ∀ ω, IsKth (fun m => X m ω) (p + 1) (U ω))
    (hV : ∀ ω, IsKth (fun m => X m ω) (p + q + 2) (V ω)) {S : Set (ℝ × ℝ)} (hS : MeasurableSet S) :
    P.map (fun ω => (U ω, V ω)) S = (arrs n p q).card *
      ∫⁻ z in {z | z ∈ S ∧ z.1 < z.2}, μ (Iio z.1) ^ p * μ (Ioo z.1 z.2) ^ q * μ (Ioi z.2) ^ (n - 2 - p - q)
        ∂(μ.prod μ) := by
  classical
  rw [Measure.map_apply ((measurable_kth hX hU).prodMk (measurable_kth hX hV)) hS]
  have hE : ∀ r : Arr n, MeasurableSet {ω | Fits (fun m => X m ω) r ∧ (X r.1.1 ω, X r.1.2 ω) ∈ S} := by
    intro r
    have : {ω | Fits (fun m => X m ω) r} = {ω | X r.1.1 ω < X r.1.2 ω} ∩ ⋂ k,
        {ω | k ≠ r.1.1 → k ≠ r.1.2 → if k ∈ r.2.1 then X k ω < X r.1.1 ω else
          if k ∈ r.2.2 then X r.1.1 ω < X k ω ∧ X k ω < X r.1.2 ω else X r.1.2 ω < X k ω} := by
      ext ω; simp [Fits]
    have hm : MeasurableSet {ω | Fits (fun m => X m ω) r} → MeasurableSet
        {ω | Fits (fun m => X m ω) r ∧ (X r.1.1 ω, X r.1.2 ω) ∈ S} :=
      fun h => h.inter ((hX r.1.1).prodMk (hX r.1.2) hS)
    refine hm ?_
    rw [this]
    refine (measurableSet_lt (hX _) (hX _)).inter (MeasurableSet.iInter fun k => ?_)
    by_cases h1 : k = r.1.1
    · simp [h1]
    by_cases h2 : k = r.1.2
    · simp [h2]
    simp only [ne_eq, h1, h2, not_false_eq_true, forall_const]
    split_ifs
    · exact measurableSet_lt (hX _) (hX _)
    · exact (measurableSet_lt (hX _) (hX _)).inter (measurableSet_lt (hX _) (hX _))
    · exact measurableSet_lt (hX _) (hX _)
  have hU' : ((fun ω => (U ω, V ω)) ⁻¹' S : Set Ω) =ᵐ[P]
      (⋃ r ∈ arrs n p q, {ω | Fits (fun m => X m ω) r ∧ (X r.1.1 ω, X r.1.2 ω) ∈ S} : Set Ω) := by
    filter_upwards [injective_ae hX hind hlaw] with ω hω
    apply propext
    change (U ω, V ω) ∈ S ↔ ω ∈ (⋃ r ∈ arrs n p q, {ω | Fits (fun m => X m ω) r ∧ (X r.1.1 ω, X r.1.2 ω) ∈ S})
    simp only [mem_iUnion, Set.mem_ofPred_eq, exists_prop]
    constructor
    · intro h
      obtain ⟨r, hr, hf, e1, e2⟩ := fits_exists hω (hU ω) (hV ω)
      exact ⟨r, hr, hf, by rw [e1, e2]; exact h⟩
    · rintro ⟨r, hr, hf, h⟩
      obtain ⟨g1, g2⟩ := fits_isKth hr hf
      rwa [g1.unique (hU ω), g2.unique (hV ω)] at h
  rw [measure_congr hU', measure_biUnion_finset _ (fun r _ => hE r)]
  · rw [Finset.sum_congr rfl fun r hr => prob_fits hX hind hlaw hr hS, Finset.sum_const, nsmul_eq_mul]
  · intro r hr r' hr' hne
    rw [Function.onFun, Set.disjoint_left]
    intro ω h h'
    exact hne (fits_unique hr h.1 hr' h'.1)

end Order
end Pacal
