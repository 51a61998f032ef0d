import Verif.Sampler.Spec
import Mathlib.Probability.Independence.Basic
import Mathlib.Probability.ConditionalProbability
import Mathlib.MeasureTheory.Constructions.Pi
import Mathlib.Probability.Independence.InfinitePi

/-! The rejection sampler: the result and its law. -/

namespace Pacal.Sampler
open MeasureTheory ProbabilityTheory Set

/-- the accepted draws, in order -/
noncomputable def accepted (L : ℝ) (xs : List ℝ) : List ℝ := xs.filter fun v => decide (v > L)

theorem rejectLoop_eq (L : ℝ) (n : ℕ) : ∀ (bs : List (List ℝ)) (tab : List ℝ),
    rejectLoop L n tab tab.length bs = if n ≤ (tab ++ accepted L bs.flatten).length then
      some ((tab ++ accepted L bs.flatten).take n) else none
  | [], tab => by
    simp only [rejectLoop, accepted, List.flatten_nil, List.filter_nil, List.append_nil]
    by_cases h : tab.length < n
    · rw [if_pos h, if_neg (by omega)]
    · rw [if_neg h, if_pos (by omega)]
  | x :: bs, tab => by
    rw [rejectLoop]
    by_cases h : tab.length < n
    · rw [if_pos h]
      dsimp only
      rw [rejectLoop_eq L n bs]
      simp only [accepted, List.flatten_cons, List.filter_append, List.append_assoc]
    · rw [if_neg h, if_pos (by rw [List.length_append]; omega), List.take_append_of_le_length (by omega)]

theorem reject_eq (L : ℝ) (n : ℕ) (bs : List (List ℝ)) :
    reject L n bs = if n ≤ (accepted L bs.flatten).length then some ((accepted L bs.flatten).take n) else none := by
  have := rejectLoop_eq L n bs []
  simpa [reject] using this

/-- the first accepted draws lie in the given sets -/
def Hit (L : ℝ) (As : List (Set ℝ)) (xs : List ℝ) : Prop :=
  List.Forall₂ (fun x A => x ∈ A) ((accepted L xs).take As.length) As

theorem hit_nil (L : ℝ) (xs : List ℝ) : Hit L [] xs := by simp [Hit]

theorem not_hit_nil (L : ℝ) (A : Set ℝ) (As : List (Set ℝ)) : ¬ Hit L (A :: As) [] := by simp [Hit, accepted]

theorem hit_cons {L x : ℝ} (hx : L < x) (A : Set ℝ) (As : List (Set ℝ)) (xs : List ℝ) :
    Hit L (A :: As) (x :: xs) ↔ x ∈ A ∧ Hit L As xs := by
  rw [Hit, Hit, accepted, List.filter_cons_of_pos (by simpa using hx), List.length_cons, List.take_succ_cons,
    List.forall₂_cons, accepted]

theorem hit_skip {L x : ℝ} (hx : x ≤ L) (As : List (Set ℝ)) (xs : List ℝ) : Hit L As (x :: xs) ↔ Hit L As xs := by
  rw [Hit, Hit, accepted, List.filter_cons_of_neg (by simpa using hx), accepted]

theorem hit_append {L : ℝ} {As : List (Set ℝ)} {xs : List ℝ} (ys : List ℝ) (h : Hit L As xs) : Hit L As (xs ++ ys) := by
  have hl := h.length_eq
  rw [List.length_take] at hl
  rw [Hit, accepted, List.filter_append, List.take_append_of_le_length]
  · exact h
  · change _ ≤ (accepted L xs).length
    omega

/-- the draws for which the first accepted ones lie in the given sets -/
def hitSet (L : ℝ) (As : List (Set ℝ)) (N : ℕ) : Set (Fin N → ℝ) := {v | Hit L As (List.ofFn v)}

theorem hitSet_succ (L : ℝ) (A : Set ℝ) (As : List (Set ℝ)) (N : ℕ) :
    hitSet L (A :: As) (N + 1) = MeasurableEquiv.piFinSuccAbove (fun _ => ℝ) 0 ⁻¹'
      ((A ∩ Ioi L) ×ˢ hitSet L As N ∪ Iic L ×ˢ hitSet L (A :: As) N) := by
  ext v
  have e : List.ofFn v = v 0 :: List.ofFn fun i : Fin N => v i.succ := List.ofFn_succ
  have e2 : MeasurableEquiv.piFinSuccAbove (fun _ => ℝ) 0 v = (v 0, fun i : Fin N => v i.succ) := by
    simp [MeasurableEquiv.piFinSuccAbove, Fin.insertNthEquiv]
    rfl
  rw [mem_preimage, e2]
  simp only [hitSet, mem_ofPred_eq, e, mem_union, mem_prod, mem_inter_iff, mem_Ioi, mem_Iic]
  rcases lt_or_ge L (v 0) with h | h
  · rw [hit_cons h]
    simp [h, not_le.2 h]
  · rw [hit_skip h]
    simp [h, not_lt.2 h]

theorem measurableSet_hitSet {L : ℝ} : ∀ (N : ℕ) (As : List (Set ℝ)), (∀ A ∈ As, MeasurableSet A) →
    MeasurableSet (hitSet L As N)
  | N, [], _ => by
    have : hitSet L [] N = univ := eq_univ_of_forall fun v => hit_nil L _
    rw [this]; exact MeasurableSet.univ
  | 0, A :: As, _ => by
    have : hitSet L (A :: As) 0 = ∅ := eq_empty_of_forall_notMem fun v h => not_hit_nil L A As (by simpa [hitSet] using h)
    rw [this]; exact MeasurableSet.empty
  | N + 1, A :: As, h => by
    rw [hitSet_succ]
    refine (MeasurableEquiv.measurable _) ?_
    exact (((h A (by simp)).inter measurableSet_Ioi).prod (measurableSet_hitSet N As fun B hB => h B (by simp [hB]))).union
      (measurableSet_Iic.prod (measurableSet_hitSet N (A :: As) h))

variable {μ : Measure ℝ} [IsProbabilityMeasure μ]

/-- the probability after `N` draws -/
noncomputable def hitP (μ : Measure ℝ) (L : ℝ) (As : List (Set ℝ)) (N : ℕ) : ENNReal :=
  (Measure.pi fun _ : Fin N => μ) (hitSet L As N)

theorem hitP_nil (L : ℝ) (N : ℕ) : hitP μ L [] N = 1 := by
  have : hitSet L [] N = univ := eq_univ_of_forall fun v => hit_nil L _
  rw [hitP, this, measure_univ]

omit [IsProbabilityMeasure μ] in
theorem hitP_zero (L : ℝ) (A : Set ℝ) (As : List (Set ℝ)) : hitP μ L (A :: As) 0 = 0 := by
  have : hitSet L (A :: As) 0 = ∅ := eq_empty_of_forall_notMem fun v h => not_hit_nil L A As (by simpa [hitSet] using h)
  rw [hitP, this, measure_empty]

theorem hitP_succ {L : ℝ} {A : Set ℝ} {As : List (Set ℝ)} (h : ∀ B ∈ A :: As, MeasurableSet B) (N : ℕ) :
    hitP μ L (A :: As) (N + 1) = μ (A ∩ Ioi L) * hitP μ L As N + μ (Iic L) * hitP μ L (A :: As) N := by
  have hAs : ∀ B ∈ As, MeasurableSet B := fun B hB => h B (by simp [hB])
  have m1 := ((h A (by simp)).inter (measurableSet_Ioi (a := L))).prod (measurableSet_hitSet (L := L) N As hAs)
  have m2 := (measurableSet_Iic (a := L)).prod (measurableSet_hitSet (L := L) N (A :: As) h)
  rw [hitP, hitSet_succ]
  have := (measurePreserving_piFinSuccAbove (fun _ : Fin (N + 1) => μ) 0).measure_preimage (m1.union m2).nullMeasurableSet
  rw [this, measure_union _ m2, Measure.prod_prod, Measure.prod_prod]
  · rfl
  · rw [Set.disjoint_left]
    rintro ⟨a, b⟩ ⟨⟨_, h1⟩, _⟩ ⟨h2, _⟩
    exact absurd (mem_Ioi.1 h1) (not_lt.2 (mem_Iic.1 h2))

theorem hitP_mono {L : ℝ} : ∀ (As : List (Set ℝ)), (∀ A ∈ As, MeasurableSet A) → Monotone (hitP μ L As)
  | [], _ => by
    intro a b _
    rw [hitP_nil, hitP_nil]
  | A :: As, h => by
    have hAs : ∀ B ∈ As, MeasurableSet B := fun B hB => h B (by simp [hB])
    refine monotone_nat_of_le_succ fun n => ?_
    induction n with
    | zero => rw [hitP_zero]; exact zero_le
    | succ n ih =>
      rw [hitP_succ h, hitP_succ h]
      gcongr
      exact hitP_mono As hAs (Nat.le_succ n)

theorem hitP_le_one {L : ℝ} (As : List (Set ℝ)) (N : ℕ) : hitP μ L As N ≤ 1 := prob_le_one

/-- the probability that the first accepted draws ever lie in the given sets -/
theorem iSup_hitP {L : ℝ} (hp : μ (Ioi L) ≠ 0) : ∀ (As : List (Set ℝ)), (∀ A ∈ As, MeasurableSet A) →
    ⨆ N, hitP μ L As N = (As.map fun A => ProbabilityTheory.cond μ (Ioi L) A).prod
  | [], _ => by simp [hitP_nil]
  | A :: As, h => by
    have hAs : ∀ B ∈ As, MeasurableSet B := fun B hB => h B (by simp [hB])
    have ih := iSup_hitP hp As hAs
    have lim := tendsto_atTop_iSup (hitP_mono (μ := μ) (L := L) (A :: As) h)
    have limAs := tendsto_atTop_iSup (hitP_mono (μ := μ) (L := L) As hAs)
    have hle : ⨆ N, hitP μ L (A :: As) N ≤ 1 := iSup_le fun N => hitP_le_one _ _
    have hfix : ⨆ N, hitP μ L (A :: As) N =
        μ (A ∩ Ioi L) * (⨆ N, hitP μ L As N) + μ (Iic L) * ⨆ N, hitP μ L (A :: As) N := by
      have h1 := (Filter.tendsto_add_atTop_iff_nat 1).2 lim
      have h2 := (ENNReal.Tendsto.const_mul limAs (Or.inr (measure_ne_top μ (A ∩ Ioi L)))).add
        (ENNReal.Tendsto.const_mul lim (Or.inr (measure_ne_top μ (Iic L))))
      simp only [hitP_succ h] at h1
      exact tendsto_nhds_unique h1 h2
    obtain ⟨s, hs⟩ : ∃ s, s = ⨆ N, hitP μ L (A :: As) N := ⟨_, rfl⟩
    rw [← hs] at hfix hle ⊢
    have hst : s ≠ ⊤ := ne_top_of_le_ne_top ENNReal.one_ne_top hle
    have hsum : μ (Ioi L) * s + μ (Iic L) * s = s := by
      rw [← add_mul, ← compl_Iic, add_comm, measure_add_measure_compl measurableSet_Iic, measure_univ, one_mul]
    have hcancel : μ (Ioi L) * s = μ (A ∩ Ioi L) * (⨆ N, hitP μ L As N) := by
      have : μ (Ioi L) * s + μ (Iic L) * s = μ (A ∩ Ioi L) * (⨆ N, hitP μ L As N) + μ (Iic L) * s := by rw [hsum]; exact hfix
      exact (ENNReal.add_left_inj (ENNReal.mul_ne_top (measure_ne_top μ _) hst)).1 this
    rw [List.map_cons, List.prod_cons, ← ih, ProbabilityTheory.cond_apply measurableSet_Ioi, mul_assoc, inter_comm, ← hcancel,
      ← mul_assoc, ENNReal.inv_mul_cancel hp (measure_ne_top μ _), one_mul]

theorem iSup_hitP_zero {L : ℝ} (hp : μ (Ioi L) = 0) (A : Set ℝ) (As : List (Set ℝ)) (h : ∀ B ∈ A :: As, MeasurableSet B) (N : ℕ) :
    hitP μ L (A :: As) N = 0 := by
  induction N with
  | zero => exact hitP_zero L A As
  | succ N ih => rw [hitP_succ h, ih, measure_mono_null inter_subset_right hp, zero_mul, mul_zero, add_zero]

theorem flatten_batches {Ω : Type*} (X : ℕ → Ω → ℝ) (n m : ℕ) (ω : Ω) :
    (batches X n m ω).flatten = List.ofFn fun i : Fin (m * n) => X i ω := by
  have : List.ofFn (fun i : Fin (m * n) => X i ω) = (List.range (m * n)).map fun i => X i ω := by
    rw [← List.map_coe_finRange_eq_range, List.map_map, List.ofFn_eq_map]
    rfl
  rw [this]
  induction m with
  | zero => simp [batches]
  | succ m ih =>
    have e : batches X n (m + 1) ω = batches X n m ω ++ [(List.range n).map fun i => X (m * n + i) ω] := by
      rw [batches, List.range_succ, List.map_append]
      rfl
    rw [e, List.flatten_append, ih (by
        rw [← List.map_coe_finRange_eq_range, List.map_map, List.ofFn_eq_map]
        rfl), Nat.add_mul, one_mul, List.range_add, List.map_append, List.map_map]
    simp [Function.comp_def]

variable {Ω : Type*} [MeasurableSpace Ω] {P : Measure Ω} [IsProbabilityMeasure P] {X : ℕ → Ω → ℝ}

omit [IsProbabilityMeasure μ] in
theorem draws_law (hX : ∀ i, Measurable (X i)) (hi : iIndepFun X P) (hμ : ∀ i, P.map (X i) = μ) (N : ℕ) :
    P.map (fun ω (i : Fin N) => X i ω) = Measure.pi fun _ : Fin N => μ := by
  have h := (iIndepFun_iff_map_fun_eq_pi_map (f := fun i : Fin N => X i) (fun i => (hX i).aemeasurable)).1
    (hi.precomp Fin.val_injective)
  rw [h]
  congr 1
  ext1 i
  exact hμ i

omit [MeasurableSpace Ω] in
theorem event_eq (L : ℝ) (As : List (Set ℝ)) :
    event X L As = ⋃ m : ℕ, (fun ω (i : Fin (m * As.length)) => X i ω) ⁻¹' hitSet L As (m * As.length) := by
  ext ω
  simp only [event, mem_ofPred_eq, mem_iUnion, mem_preimage, hitSet, ← flatten_batches]
  refine exists_congr fun m => ?_
  rw [reject_eq]
  constructor
  · rintro ⟨r, h, hr⟩
    split_ifs at h with hn
    rw [Option.some.injEq] at h
    rw [Hit, h]
    exact hr
  · intro h
    have hl := h.length_eq
    rw [List.length_take] at hl
    exact ⟨_, if_pos (by omega), h⟩

theorem measure_event (hX : ∀ i, Measurable (X i)) (hi : iIndepFun X P) (hμ : ∀ i, P.map (X i) = μ) (L : ℝ)
    (As : List (Set ℝ)) (hA : ∀ A ∈ As, MeasurableSet A) : P (event X L As) = ⨆ N, hitP μ L As N := by
  have hP : ∀ N, P ((fun ω (i : Fin N) => X i ω) ⁻¹' hitSet L As N) = hitP μ L As N := by
    intro N
    rw [hitP, ← draws_law hX hi hμ N, Measure.map_apply (measurable_pi_lambda _ fun i : Fin N => hX i) (measurableSet_hitSet N As hA)]
  rw [event_eq, Monotone.measure_iUnion]
  · simp only [hP]
    rcases As with _ | ⟨A, As⟩
    · simp [hitP_nil]
    · refine le_antisymm (iSup_le fun m => le_iSup _ (m * _)) (iSup_le fun N => ?_)
      exact (hitP_mono _ hA (Nat.le_mul_of_pos_right N (by simp))).trans (le_iSup (fun m => hitP μ L (A :: As) (m * (A :: As).length)) N)
  · intro a b hab ω h
    simp only [mem_preimage, hitSet, mem_ofPred_eq] at h ⊢
    rw [← flatten_batches] at h ⊢
    have e : batches X As.length b ω = batches X As.length a ω ++ (batches X As.length b ω).drop a := by
      conv_lhs => rw [← List.take_append_drop a (batches X As.length b ω)]
      congr 1
      rw [batches, ← List.map_take, List.take_range, min_eq_left hab]
      rfl
    rw [e, List.flatten_append]
    exact hit_append _ h

end Pacal.Sampler
