import Verif.Iid.Lemmas
import Verif.Iid.Spec
import Mathlib.Probability.Independence.Basic
import Mathlib.MeasureTheory.Measure.Real
import Mathlib.Analysis.Calculus.Deriv.Pow
import Mathlib.Analysis.Calculus.Deriv.Mul
import Mathlib.Analysis.Calculus.Deriv.Comp
import Mathlib.Analysis.Calculus.Deriv.Add

/-! Lemmas connecting the iid operations with independent copies of a random variable. -/

open MeasureTheory ProbabilityTheory

namespace Pacal
namespace Iid

theorem nfold_congr {β : Type*} (g : β → β → β) (X Y : ℕ → β) (j : ℕ) :
    ∀ k, (∀ i, j ≤ i → i ≤ j + k → X i = Y i) → nfold g X j k = nfold g Y j k := by
  intro k
  induction k with
  | zero => intro h; exact h j le_rfl le_rfl
  | succ k ih =>
    intro h
    simp only [nfold]
    rw [ih (fun i h₁ h₂ => h i h₁ (by omega)), h (j + (k + 1)) (by omega) le_rfl]

theorem nfold_append {β : Type*} (g : β → β → β) (ha : ∀ a b c, g (g a b) c = g a (g b c))
    (X : ℕ → β) (j m : ℕ) : ∀ k, nfold g X j (m + k + 1) = g (nfold g X j m) (nfold g X (j + (m + 1)) k) := by
  intro k
  induction k with
  | zero => rfl
  | succ k ih =>
    have : m + (k + 1) + 1 = (m + k + 1) + 1 := by omega
    rw [this, nfold, ih, ha]
    simp only [nfold]
    congr 3
    omega

theorem measurable_nfold {Ω : Type*} [MeasurableSpace Ω] {g : ℝ → ℝ → ℝ}
    (hg : Measurable (Function.uncurry g)) {X : ℕ → Ω → ℝ} (hX : ∀ i, Measurable (X i)) (j k : ℕ) :
    Measurable (fun ω => nfold g (fun i => X i ω) j k) := by
  induction k with
  | zero => exact hX j
  | succ k ih => exact hg.comp (ih.prodMk (hX _))

/-- adjacent blocks of independent variables are independent -/
theorem indep_blocks {Ω : Type*} [MeasurableSpace Ω] {P : Measure Ω} {g : ℝ → ℝ → ℝ}
    (hg : Measurable (Function.uncurry g)) {X : ℕ → Ω → ℝ} (hX : ∀ i, Measurable (X i))
    (hind : iIndepFun X P) (j m k : ℕ) :
    IndepFun (fun ω => nfold g (fun i => X i ω) j m)
      (fun ω => nfold g (fun i => X i ω) (j + (m + 1)) k) P := by
  let S := Finset.Icc j (j + m)
  let T := Finset.Icc (j + (m + 1)) (j + (m + 1) + k)
  have hd : Disjoint S T := by
    rw [Finset.disjoint_left]
    intro i hi hi'
    simp only [S, T, Finset.mem_Icc] at hi hi'
    omega
  have h := hind.indepFun_finset S T hd hX
  have ext : ∀ (U : Finset ℕ), ∀ i, Measurable (fun y : U → ℝ => if h : i ∈ U then y ⟨i, h⟩ else 0) := by
    intro U i
    by_cases hi : i ∈ U
    · simp only [hi, dif_pos]; exact measurable_pi_apply _
    · simp only [hi, dif_neg, not_false_iff]; exact measurable_const
  have := h.comp (φ := fun y : S → ℝ => nfold g (fun i => if h : i ∈ S then y ⟨i, h⟩ else 0) j m)
    (ψ := fun y : T → ℝ => nfold g (fun i => if h : i ∈ T then y ⟨i, h⟩ else 0) (j + (m + 1)) k)
    (measurable_nfold hg (ext S) _ _) (measurable_nfold hg (ext T) _ _)
  convert this using 1
  · ext ω
    simp only [Function.comp]
    apply nfold_congr
    intro i h₁ h₂
    have : i ∈ S := Finset.mem_Icc.2 ⟨h₁, h₂⟩
    simp [this]
  · ext ω
    simp only [Function.comp]
    apply nfold_congr
    intro i h₁ h₂
    have : i ∈ T := Finset.mem_Icc.2 ⟨h₁, h₂⟩
    simp [this]

/-- `a` has the law of an `m`-fold result, whichever block of copies is used -/
def HasLaw {α Ω : Type*} [MeasurableSpace Ω] (law : α → Measure ℝ) (P : Measure Ω) (g : ℝ → ℝ → ℝ)
    (X : ℕ → Ω → ℝ) (a : α) (m : ℕ) : Prop :=
  1 ≤ m ∧ ∀ j, law a = P.map (fun ω => nfold g (fun i => X i ω) j (m - 1))

theorem hasLaw_op {α Ω : Type*} [MeasurableSpace Ω] {law : α → Measure ℝ} {P : Measure Ω}
    [IsProbabilityMeasure P] {g : ℝ → ℝ → ℝ} (hg : Measurable (Function.uncurry g))
    (hassoc : ∀ a b c, g (g a b) c = g a (g b c)) {X : ℕ → Ω → ℝ} (hX : ∀ i, Measurable (X i))
    (hind : iIndepFun X P) {a b c : α} {m k : ℕ} (ha : HasLaw law P g X a m) (hb : HasLaw law P g X b k)
    (hc : law c = ((law a).prod (law b)).map (Function.uncurry g)) : HasLaw law P g X c (m + k) := by
  obtain ⟨hm, ha⟩ := ha
  obtain ⟨hk, hb⟩ := hb
  refine ⟨by omega, fun j => ?_⟩
  have e : m + k - 1 = (m - 1) + (k - 1) + 1 := by omega
  have hA := measurable_nfold hg hX j (m - 1)
  have hB := measurable_nfold hg hX (j + (m - 1 + 1)) (k - 1)
  rw [hc, ha j, hb (j + (m - 1 + 1)),
    ← (indepFun_iff_map_prod_eq_prod_map_map hA.aemeasurable hB.aemeasurable).1
      (indep_blocks hg hX hind j (m - 1) (k - 1)),
    Measure.map_map hg (hA.prodMk hB)]
  congr 1
  ext ω
  simp only [Function.comp, Function.uncurry]
  rw [e, nfold_append g hassoc]

/-! ### order statistics -/

theorem atLeast_succ {K : Type*} [Field K] (n k : ℕ) (h : k ≤ n) (p : K) :
    atLeast n k p = (n.choose k : K) * p ^ k * (1 - p) ^ (n - k) + atLeast n (k + 1) p := by
  unfold atLeast
  rw [← Finset.sum_insert (s := Finset.Icc (k + 1) n) (a := k)
    (f := fun j => (n.choose j : K) * p ^ j * (1 - p) ^ (n - j))]
  · congr 1
    ext j
    simp only [Finset.mem_insert, Finset.mem_Icc]
    omega
  · simp

theorem hasDerivAt_atLeast (n : ℕ) (p : ℝ) : ∀ d k, 1 ≤ k → k + d = n →
    HasDerivAt (fun p : ℝ => atLeast n k p)
      (k * (n.choose k : ℝ) * (p ^ (k - 1) * (1 - p) ^ (n - k))) p := by
  intro d
  induction d with
  | zero =>
    intro k hk h
    have : k = n := by omega
    subst this
    have e : (fun p : ℝ => atLeast k k p) = fun p => p ^ k := by
      ext p; simp [atLeast]
    rw [e]
    simpa using hasDerivAt_pow k p
  | succ d ih =>
    intro k hk h
    have ih := ih (k + 1) (by omega) (by omega)
    have e : (fun p : ℝ => atLeast n k p) =
        fun p => (n.choose k : ℝ) * p ^ k * (1 - p) ^ (n - k) + atLeast n (k + 1) p := by
      ext p; exact atLeast_succ n k (by omega) p
    rw [e]
    have h₁ : HasDerivAt (fun p : ℝ => (n.choose k : ℝ) * p ^ k) ((n.choose k : ℝ) * (k * p ^ (k - 1))) p :=
      (hasDerivAt_pow k p).const_mul _
    have h₂ : HasDerivAt (fun p : ℝ => (1 - p) ^ (n - k))
        (((n - k : ℕ) : ℝ) * (1 - p) ^ (n - k - 1) * (-1)) p := by
      have := ((hasDerivAt_id' p).const_sub 1).fun_pow (n - k)
      simpa using this
    have h₃ := (h₁.mul h₂).add ih
    refine h₃.congr_deriv ?_
    have hc := Nat.choose_succ_right_eq n k
    have hc' : (n.choose (k + 1) : ℝ) * (k + 1) = n.choose k * ((n - k : ℕ) : ℝ) := by
      exact_mod_cast hc
    have e₂ : n - (k + 1) = n - k - 1 := by omega
    have e₃ : p ^ k = p ^ (k - 1) * p := by
      rw [← pow_succ]; congr 1; omega
    rw [e₂, Nat.add_sub_cancel]
    push_cast
    rw [mul_comm ((k : ℝ) + 1) (n.choose (k + 1) : ℝ), hc']
    ring

/-- The number of successes among `X 0, ..., X (n-1)`. -/
theorem prob_atLeast {Ω : Type*} [MeasurableSpace Ω] {P : Measure Ω} [IsProbabilityMeasure P]
    {X : ℕ → Ω → ℝ} (hX : ∀ i, Measurable (X i)) (hind : iIndepFun X P) (x p : ℝ)
    (hlaw : ∀ i, P.real {ω | X i ω ≤ x} = p) (n k : ℕ) :
    P.real {ω | k ≤ ((Finset.range n).filter (fun i => X i ω ≤ x)).card} = atLeast n k p := by
  classical
  -- the event that exactly the indices in `T` succeed
  let E : Finset ℕ → Set Ω := fun T => {ω | (Finset.range n).filter (fun i => X i ω ≤ x) = T}
  have hE : ∀ T ∈ (Finset.range n).powerset, E T =
      ⋂ i ∈ Finset.range n, X i ⁻¹' (if i ∈ T then Set.Iic x else Set.Ioi x) := by
    intro T hT
    rw [Finset.mem_powerset] at hT
    ext ω
    simp only [E, Set.mem_ofPred_eq, Set.mem_iInter, Set.mem_preimage]
    constructor
    · rintro rfl i hi
      by_cases h : X i ω ≤ x
      · have hm : i ∈ (Finset.range n).filter (fun i => X i ω ≤ x) := Finset.mem_filter.2 ⟨hi, h⟩
        simpa only [hm, if_true, Set.mem_Iic] using h
      · have hm : i ∉ (Finset.range n).filter (fun i => X i ω ≤ x) := fun h' => h (Finset.mem_filter.1 h').2
        simpa only [hm, if_false, Set.mem_Ioi, not_le] using h
    · intro h
      ext i
      rw [Finset.mem_filter]
      constructor
      · rintro ⟨hi, hx⟩
        by_contra hiT
        have := h i hi
        simp only [hiT, if_false, Set.mem_Ioi] at this
        exact absurd hx (not_le.2 this)
      · intro hiT
        refine ⟨hT hiT, ?_⟩
        have := h i (hT hiT)
        simpa only [hiT, if_true, Set.mem_Iic] using this
  have hms : ∀ i (T : Finset ℕ), MeasurableSet (if i ∈ T then Set.Iic x else Set.Ioi x) := by
    intro i T; split
    · exact measurableSet_Iic
    · exact measurableSet_Ioi
  have hEm : ∀ T ∈ (Finset.range n).powerset, MeasurableSet (E T) := by
    intro T hT
    rw [hE T hT]
    exact Finset.measurableSet_biInter _ (fun i _ => hX i (hms i T))
  have hcompl : ∀ i, P.real {ω | x < X i ω} = 1 - p := by
    intro i
    have : {ω | x < X i ω} = {ω | X i ω ≤ x}ᶜ := by ext ω; simp
    have hm : MeasurableSet {ω | X i ω ≤ x} := hX i measurableSet_Iic
    rw [this, probReal_compl_eq_one_sub hm, hlaw i]
  have hP : ∀ T ∈ (Finset.range n).powerset, P.real (E T) = p ^ T.card * (1 - p) ^ (n - T.card) := by
    intro T hT
    have hTs := Finset.mem_powerset.1 hT
    rw [hE T hT, measureReal_def,
      hind.measure_inter_preimage_eq_mul (Finset.range n) (fun i _ => hms i T), ENNReal.toReal_prod]
    have : ∀ i ∈ Finset.range n, (P (X i ⁻¹' (if i ∈ T then Set.Iic x else Set.Ioi x))).toReal =
        if i ∈ T then p else 1 - p := by
      intro i _
      split
      · exact hlaw i
      · exact hcompl i
    rw [Finset.prod_congr rfl this, Finset.prod_ite, Finset.prod_const, Finset.prod_const]
    congr 2
    · congr 1; ext i; simp only [Finset.mem_filter]; exact ⟨fun h => h.2, fun h => ⟨hTs h, h⟩⟩
    · have : (Finset.range n).filter (fun i => i ∉ T) = Finset.range n \ T := by
        ext i; simp
      rw [this, Finset.card_sdiff_of_subset hTs, Finset.card_range]
  have hU : {ω | k ≤ ((Finset.range n).filter (fun i => X i ω ≤ x)).card} =
      ⋃ T ∈ (Finset.range n).powerset.filter (fun T => k ≤ T.card), E T := by
    ext ω
    simp only [Set.mem_ofPred_eq, Set.mem_iUnion, exists_prop, E, Finset.mem_filter, Finset.mem_powerset]
    constructor
    · intro h
      exact ⟨_, ⟨Finset.filter_subset _ _, h⟩, rfl⟩
    · rintro ⟨T, ⟨_, h⟩, rfl⟩
      exact h
  rw [hU, measureReal_biUnion_finset]
  · rw [Finset.sum_congr rfl (fun T hT => hP T (Finset.mem_filter.1 hT).1), Finset.sum_filter,
      Finset.sum_powerset_apply_card
        (f := fun m => if k ≤ m then p ^ m * (1 - p) ^ (n - m) else 0)]
    rw [Finset.card_range, atLeast]
    rw [← Finset.sum_filter_add_sum_filter_not (Finset.range (n + 1)) (fun m => k ≤ m)]
    rw [Finset.sum_eq_zero (s := (Finset.range (n + 1)).filter (fun m => ¬ k ≤ m)), add_zero]
    · have : (Finset.range (n + 1)).filter (fun m => k ≤ m) = Finset.Icc k n := by
        ext m; simp only [Finset.mem_filter, Finset.mem_range, Finset.mem_Icc]; omega
      rw [this]
      apply Finset.sum_congr rfl
      intro m hm
      rw [if_pos (Finset.mem_Icc.1 hm).1, nsmul_eq_mul]; ring
    · intro m hm
      rw [if_neg (Finset.mem_filter.1 hm).2]; simp
  · intro T _ T' _ hne
    rw [Function.onFun, Set.disjoint_left]
    intro ω h h'
    exact hne (h.symm.trans h')
  · intro T hT
    exact hEm T (Finset.mem_filter.1 hT).1

end Iid
end Pacal
