import Verif.Order.LemJoint

/-! The law of one order statistic of an independent sample. -/

open MeasureTheory ProbabilityTheory Set
open scoped ENNReal

namespace Pacal
namespace Order

variable {Ω : Type*} [MeasurableSpace Ω] {P : Measure Ω} [IsProbabilityMeasure P] {μ : Measure ℝ}
  [IsProbabilityMeasure μ] {n : ℕ} {X : Fin n → Ω → ℝ}

/-- positions of the order statistic of rank `p + 1` and of the smaller values -/
def arrs1 (n p : ℕ) : Finset (Σ _ : Fin n, Finset (Fin n)) :=
  (Finset.univ : Finset (Fin n)).sigma fun a => Finset.powersetCard p (Finset.univ \ {a})

theorem mem_arrs1 {p : ℕ} {a : Fin n} {A : Finset (Fin n)} :
    (⟨a, A⟩ : Σ _ : Fin n, Finset (Fin n)) ∈ arrs1 n p ↔ a ∉ A ∧ A.card = p := by
  simp only [arrs1, Finset.mem_sigma, Finset.mem_univ, true_and, Finset.mem_powersetCard, Finset.subset_iff,
    Finset.mem_sdiff, Finset.mem_singleton]
  constructor
  · rintro ⟨h, hp⟩; exact ⟨fun ha => h ha rfl, hp⟩
  · rintro ⟨h, hp⟩
    exact ⟨fun k hk => by rintro rfl; exact h hk, hp⟩

theorem card_arrs1 (n p : ℕ) : (arrs1 n p).card = n * (n - 1).choose p := by
  rw [arrs1, Finset.card_sigma]
  have h1 : ∀ a ∈ (Finset.univ : Finset (Fin n)),
      (Finset.powersetCard p ((Finset.univ : Finset (Fin n)) \ {a})).card = (n - 1).choose p := by
    intro a _
    rw [Finset.card_powersetCard, Finset.card_sdiff_of_subset (Finset.subset_univ _), Finset.card_univ,
      Fintype.card_fin, Finset.card_singleton]
  rw [Finset.sum_congr rfl h1, Finset.sum_const, Finset.card_univ, Fintype.card_fin, smul_eq_mul]

/-- exactly the values at `A` are smaller than the value at `a`, and there is no tie with it -/
def Fits1 (x : Fin n → ℝ) (r : Σ _ : Fin n, Finset (Fin n)) : Prop :=
  ∀ k, k ≠ r.1 → if k ∈ r.2 then x k < x r.1 else x r.1 < x k

theorem fits1_below {p : ℕ} {x : Fin n → ℝ} {a : Fin n} {A : Finset (Fin n)}
    (hr : (⟨a, A⟩ : Σ _ : Fin n, Finset (Fin n)) ∈ arrs1 n p) (h : Fits1 x ⟨a, A⟩) :
    (Finset.univ.filter fun m => x m < x a) = A := by
  obtain ⟨h1, hp⟩ := mem_arrs1.1 hr
  ext m
  simp only [Finset.mem_filter, Finset.mem_univ, true_and]
  rcases eq_or_ne m a with rfl | ha
  · simp [h1]
  have := h m ha
  dsimp only at this
  split_ifs at this with c1
  · simp [c1, this]
  · simp [c1, this.le]

theorem fits1_isKth {p : ℕ} {x : Fin n → ℝ} {r : Σ _ : Fin n, Finset (Fin n)} (hr : r ∈ arrs1 n p)
    (h : Fits1 x r) : IsKth x (p + 1) (x r.1) := by
  obtain ⟨a, A⟩ := r
  refine isKth_of_card ?_
  rw [fits1_below hr h, (mem_arrs1.1 hr).2]

theorem fits1_unique {p : ℕ} {x : Fin n → ℝ} {r r' : Σ _ : Fin n, Finset (Fin n)} (hr : r ∈ arrs1 n p)
    (h : Fits1 x r) (hr' : r' ∈ arrs1 n p) (h' : Fits1 x r') : r = r' := by
  have e := (fits1_isKth hr h).unique (fits1_isKth hr' h')
  have ea : r.1 = r'.1 := by
    by_contra hne
    have := h' r.1 hne
    split_ifs at this <;> linarith
  obtain ⟨a, A⟩ := r
  obtain ⟨a', A'⟩ := r'
  dsimp only at ea
  subst ea
  have eA : A = A' := (fits1_below hr h).symm.trans (fits1_below hr' h')
  subst eA
  rfl

theorem fits1_exists {p : ℕ} {x : Fin n → ℝ} (hx : Function.Injective x) {u : ℝ}
    (hu : IsKth x (p + 1) u) : ∃ r ∈ arrs1 n p, Fits1 x r ∧ x r.1 = u := by
  obtain ⟨a, rfl⟩ := hu.1
  refine ⟨⟨a, Finset.univ.filter fun m => x m < x a⟩, mem_arrs1.2 ⟨by simp, card_of_isKth hx hu⟩, ?_, rfl⟩
  intro k hk
  dsimp only at hk ⊢
  split_ifs with c
  · simpa using c
  · simp only [Finset.mem_filter, Finset.mem_univ, true_and, not_lt] at c
    exact lt_of_le_of_ne c fun e => hk (hx e.symm)

theorem prob_fits1 (hX : ∀ m, Measurable (X m)) (hind : iIndepFun X P) (hlaw : ∀ m, P.map (X m) = μ)
    {p : ℕ} {r : Σ _ : Fin n, Finset (Fin n)} (hr : r ∈ arrs1 n p) {S : Set ℝ} (hS : MeasurableSet S) :
    P {ω | Fits1 (fun m => X m ω) r ∧ X r.1 ω ∈ S} =
      ∫⁻ z in S, μ (Iio z) ^ p * μ (Ioi z) ^ (n - 1 - p) ∂μ := by
  classical
  obtain ⟨a, A⟩ := r
  obtain ⟨haA, hp⟩ := mem_arrs1.1 hr
  set T : Finset (Fin n) := Finset.univ \ {a} with hT
  have hTmem : ∀ k, k ∈ T ↔ k ≠ a := by intro k; simp [hT]
  let I : Fin n → ℝ → Set ℝ := fun k z => if k ∈ A then Iio z else Ioi z
  have hZT : IndepFun (X a) (fun ω (k : T) => X k ω) P := by
    have hdis : Disjoint ({a} : Finset (Fin n)) T := Finset.disjoint_sdiff
    have h := hind.indepFun_finset {a} T hdis hX
    have hφ : Measurable (fun w : (({a} : Finset (Fin n)) → ℝ) => w ⟨a, by simp⟩) := by fun_prop
    exact h.comp hφ measurable_id
  have hI : ∀ k : T, MeasurableSet {w : ℝ × ℝ | w.2 ∈ I k w.1} := by
    intro k
    by_cases hk : (k : Fin n) ∈ A
    · simp only [I, hk, if_true, mem_Iio]
      exact measurableSet_lt measurable_snd measurable_fst
    · simp only [I, hk, if_false, mem_Ioi]
      exact measurableSet_lt measurable_fst measurable_snd
  have key := cells hX hind hlaw T (hX a) hZT hS (fun k z => I k z) hI
  have hev : {ω | Fits1 (fun m => X m ω) ⟨a, A⟩ ∧ X a ω ∈ S} =
      {ω | X a ω ∈ S ∧ ∀ k : T, X k ω ∈ I k (X a ω)} := by
    ext ω
    simp only [Fits1, Set.mem_ofPred_eq, I]
    constructor
    · rintro ⟨h2, h3⟩
      refine ⟨h3, fun k => ?_⟩
      have := h2 k ((hTmem k).1 k.2)
      split_ifs at this ⊢ <;> simp_all
    · rintro ⟨h3, h2⟩
      refine ⟨fun k ka => ?_, h3⟩
      have := h2 ⟨k, (hTmem k).2 ka⟩
      dsimp only at this
      by_cases k1 : k ∈ A
      · simpa [k1] using this
      · simpa [k1] using this
  have e1 : (⟨a, A⟩ : Σ _ : Fin n, Finset (Fin n)).1 = a := rfl
  rw [e1, hev, key, hlaw]
  refine lintegral_congr fun z => ?_
  have hprod : ∏ k : T, μ (I k z) = ∏ k ∈ T, μ (I k z) := Finset.prod_coe_sort T (fun k => μ (I k z))
  rw [hprod]
  have hAT : A ⊆ T := fun k hk => (hTmem k).2 fun e => haA (e ▸ hk)
  have hcT : T.card = n - 1 := by
    rw [hT, Finset.card_sdiff_of_subset (Finset.subset_univ _), Finset.card_univ, Fintype.card_fin,
      Finset.card_singleton]
  rw [← Finset.prod_sdiff hAT]
  have f1 : ∏ k ∈ A, μ (I k z) = μ (Iio z) ^ p := by
    rw [← hp]
    apply Finset.prod_eq_pow_card
    intro k hk
    simp [I, hk]
  have f3 : ∏ k ∈ T \ A, μ (I k z) = μ (Ioi z) ^ (n - 1 - p) := by
    rw [show n - 1 - p = (T \ A).card by rw [Finset.card_sdiff_of_subset hAT, hcT, hp]]
    apply Finset.prod_eq_pow_card
    intro k hk
    simp [I, (Finset.mem_sdiff.1 hk).2]
  rw [f1, f3, mul_comm]

theorem single_law [NullSingletonClass μ] (hX : ∀ m, Measurable (X m)) (hind : iIndepFun X P)
    (hlaw : ∀ m, P.map (X m) = μ) {p : ℕ} {U : Ω → ℝ}
    (hU : ∀ ω, IsKth (fun m => X m ω) (p + 1) (U ω)) {S : Set ℝ} (hS : MeasurableSet S) :
    P.map U S = (arrs1 n p).card * ∫⁻ z in S, μ (Iio z) ^ p * μ (Ioi z) ^ (n - 1 - p) ∂μ := by
  classical
  rw [Measure.map_apply (measurable_kth hX hU) hS]
  have hE : ∀ r : Σ _ : Fin n, Finset (Fin n),
      MeasurableSet {ω | Fits1 (fun m => X m ω) r ∧ X r.1 ω ∈ S} := by
    intro r
    have : {ω | Fits1 (fun m => X m ω) r} = ⋂ k,
        {ω | k ≠ r.1 → if k ∈ r.2 then X k ω < X r.1 ω else X r.1 ω < X k ω} := by
      ext ω; simp [Fits1]
    have hm : MeasurableSet {ω | Fits1 (fun m => X m ω) r} → MeasurableSet
        {ω | Fits1 (fun m => X m ω) r ∧ X r.1 ω ∈ S} :=
      fun h => h.inter (hX r.1 hS)
    refine hm ?_
    rw [this]
    refine MeasurableSet.iInter fun k => ?_
    by_cases h1 : k = r.1
    · simp [h1]
    simp only [ne_eq, h1, not_false_eq_true, forall_const]
    split_ifs
    · exact measurableSet_lt (hX _) (hX _)
    · exact measurableSet_lt (hX _) (hX _)
  have hU' : (U ⁻¹' S : Set Ω) =ᵐ[P]
      (⋃ r ∈ arrs1 n p, {ω | Fits1 (fun m => X m ω) r ∧ X r.1 ω ∈ S} : Set Ω) := by
    filter_upwards [injective_ae hX hind hlaw] with ω hω
    apply propext
    change U ω ∈ S ↔ ω ∈ (⋃ r ∈ arrs1 n p, {ω | Fits1 (fun m => X m ω) r ∧ X r.1 ω ∈ S})
    simp only [mem_iUnion, Set.mem_ofPred_eq, exists_prop]
    constructor
    · intro h
      obtain ⟨r, hr, hf, e1⟩ := fits1_exists hω (hU ω)
      exact ⟨r, hr, hf, by rw [e1]; exact h⟩
    · rintro ⟨r, hr, hf, h⟩
      rwa [(fits1_isKth hr hf).unique (hU ω)] at h
  rw [measure_congr hU', measure_biUnion_finset _ (fun r _ => hE r)]
  · rw [Finset.sum_congr rfl fun r hr => prob_fits1 hX hind hlaw hr hS, Finset.sum_const, nsmul_eq_mul]
  · intro r hr r' hr' hne
    rw [Function.onFun, Set.disjoint_left]
    intro ω h h'
    exact hne (fits1_unique hr h.1 hr' h'.1)

end Order
end Pacal
