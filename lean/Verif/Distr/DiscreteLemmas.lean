import Verif.Distr.Discrete
import Verif.Law.PropsCdf
import Verif.Law.PropsLaw
import Verif.Segments.PropsAssemble
import Mathlib.MeasureTheory.Measure.Lebesgue.Basic

/-! Helper lemmas about discrete distributions. -/

namespace Pacal
open MeasureTheory Set Transform

theorem tableSort_perm (t : List (ℝ × ℝ)) : (tableSort t).Perm t := List.mergeSort_perm _ _

theorem tableSort_sorted (t : List (ℝ × ℝ)) : (tableSort t).Pairwise fun a b => a.1 ≤ b.1 := by
  have := List.pairwise_mergeSort (le := pairLe) (by
      intro a b c h1 h2
      simp only [pairLe, decide_eq_true_eq] at *
      rcases h1 with h1 | ⟨h1, h1'⟩
      · rcases h2 with h2 | ⟨h2, -⟩
        · exact .inl (h1.trans h2)
        · exact .inl (h2 ▸ h1)
      · rcases h2 with h2 | ⟨h2, h2'⟩
        · exact .inl (h1 ▸ h2)
        · exact .inr ⟨h1.trans h2, h1'.trans h2'⟩) (by
      intro a b
      simp only [pairLe, Bool.or_eq_true, decide_eq_true_eq]
      rcases lt_trichotomy a.1 b.1 with h | h | h
      · exact .inl (.inl h)
      · rcases le_total a.2 b.2 with h' | h'
        · exact .inl (.inr ⟨h, h'⟩)
        · exact .inr (.inr ⟨h.symm, h'⟩)
      · exact .inr (.inl h)) t
  refine this.imp fun {a b} h => ?_
  simp only [pairLe, decide_eq_true_eq] at h
  rcases h with h | h
  · exact h.le
  · exact h.1.le

theorem foldl_pdf (x : ℝ) : ∀ (t : List (ℝ × ℝ)) (c : ℝ),
    t.foldl (fun yy p => if x = p.1 then yy + p.2 else yy) c = c + ((t.filter fun p => decide (p.1 = x)).map Prod.snd).sum
  | [], c => by simp
  | p :: t, c => by
    rw [List.foldl_cons, foldl_pdf x t]
    by_cases h : x = p.1
    · rw [if_pos h, List.filter_cons_of_pos (by simp [h])]
      simp [add_assoc]
    · rw [if_neg h, List.filter_cons_of_neg (by simpa using Ne.symm h)]

/-- the pieces in order -/
def atomPieces : List (ℝ × ℝ) → PF ℝ
  | [] => []
  | [p] => [.dirac p.1 p.2]
  | p :: r :: t => .dirac p.1 p.2 :: .const p.1 r.1 0 :: atomPieces (r :: t)

theorem atomPieces_perm : ∀ t : List (ℝ × ℝ),
    (t.map (fun p => Seg.dirac p.1 p.2) ++ zeroPieces (t.map Prod.fst)).Perm (atomPieces t)
  | [] => by simp [atomPieces, zeroPieces]
  | [p] => by simp [atomPieces, zeroPieces]
  | p :: r :: t => by
    have ih := atomPieces_perm (r :: t)
    simp only [atomPieces, zeroPieces, List.map_cons, List.cons_append] at ih ⊢
    refine List.Perm.cons _ ?_
    refine List.Perm.trans ?_ (List.Perm.cons _ ih)
    exact (List.perm_middle (l₁ := Seg.dirac r.1 r.2 :: t.map fun p => Seg.dirac p.1 p.2))

theorem atomPieces_mem : ∀ {t : List (ℝ × ℝ)} {s : Seg ℝ}, s ∈ atomPieces t →
    (∃ p ∈ t, s = .dirac p.1 p.2) ∨ ∃ p ∈ t, ∃ r ∈ t, s = .const p.1 r.1 0
  | [], s, h => by simp [atomPieces] at h
  | [p], s, h => by simp [atomPieces] at h; exact .inl ⟨p, by simp, h⟩
  | p :: r :: t, s, h => by
    simp only [atomPieces, List.mem_cons] at h
    rcases h with rfl | rfl | h
    · exact .inl ⟨p, by simp, rfl⟩
    · exact .inr ⟨p, by simp, r, by simp, rfl⟩
    · rcases atomPieces_mem h with ⟨a, ha, e⟩ | ⟨a, ha, b, hb, e⟩
      · exact .inl ⟨a, by simp at ha ⊢; tauto, e⟩
      · exact .inr ⟨a, by simp at ha ⊢; tauto, b, by simp at hb ⊢; tauto, e⟩

theorem atomPieces_wf {eps : ℝ} (he : 0 ≤ eps) : ∀ {t : List (ℝ × ℝ)}, (t.Pairwise fun a b => a.1 + eps < b.1) →
    PF.WF eps (atomPieces t)
  | [], _ => ⟨by simp [atomPieces], by simp [atomPieces]⟩
  | [p], _ => ⟨by simp [atomPieces, Seg.WF], by simp [atomPieces]⟩
  | p :: r :: t, h => by
    have h' := List.pairwise_cons.1 h
    have ih := atomPieces_wf he h'.2
    have hpr : p.1 < r.1 := by have := h'.1 r (by simp); linarith
    have hr : ∀ a ∈ r :: t, r.1 ≤ a.1 := by
      intro a ha
      rcases List.mem_cons.1 ha with rfl | ha
      · exact le_rfl
      · have := (List.pairwise_cons.1 h'.2).1 a ha; linarith
    have hlo : ∀ s ∈ atomPieces (r :: t), Ext.fin r.1 ≤ s.lo := by
      intro s hs
      rcases atomPieces_mem hs with ⟨a, ha, rfl⟩ | ⟨a, ha, b, hb, rfl⟩
      · exact ext_le.2 (hr a ha)
      · exact ext_le.2 (hr a ha)
    refine ⟨?_, ?_⟩
    · intro s hs
      simp only [atomPieces, List.mem_cons] at hs
      rcases hs with rfl | rfl | hs
      · trivial
      · exact hpr
      · exact ih.seg s hs
    · simp only [atomPieces, List.pairwise_cons]
      refine ⟨?_, ?_, ih.sorted⟩
      · intro s hs
        rcases List.mem_cons.1 hs with rfl | hs
        · exact ⟨ext_le.2 le_rfl, by intro a m a' m' h1 h2; cases h2⟩
        · refine ⟨(ext_le.2 hpr.le).trans (hlo s hs), ?_⟩
          intro a m a' m' h1 h2
          cases h1
          subst h2
          rcases atomPieces_mem hs with ⟨b, hb, e⟩ | ⟨b, hb, c, hc, e⟩
          · cases e
            have := h'.1 b hb
            rw [abs_sub_comm, abs_of_pos (by linarith)]; linarith
          · cases e
      · intro s hs
        exact ⟨(ext_le.2 le_rfl).trans (hlo s hs), by intro a m a' m' h1 h2; cases h1⟩

theorem atomPieces_chain : ∀ t : List (ℝ × ℝ), List.IsChain Seg.follows (atomPieces t)
  | [] => by simp [atomPieces]
  | [p] => by simp [atomPieces]
  | [p, r] => by simp [atomPieces, Seg.follows, Seg.isDirac, Seg.hi]
  | p :: r :: s :: t => by
    have ih := atomPieces_chain (r :: s :: t)
    simp only [atomPieces, List.isChain_cons_cons] at ih ⊢
    exact ⟨.inl rfl, ⟨rfl, rfl⟩, ih⟩

theorem atomPieces_touching : ∀ t : List (ℝ × ℝ), PF.Touching (atomPieces t)
  | [] => by simp [atomPieces, PF.Touching]
  | [p] => by simp [atomPieces, PF.Touching]
  | p :: r :: t => by
    have := atomPieces_chain (p :: r :: t)
    simp only [atomPieces] at this ⊢
    exact ⟨rfl, this⟩

theorem atomPieces_dens {t : List (ℝ × ℝ)} (h : ∀ p ∈ t, 0 ≤ p.2) : PF.Dens (atomPieces t) := by
  intro s hs
  rcases atomPieces_mem hs with ⟨a, ha, rfl⟩ | ⟨a, ha, b, hb, rfl⟩
  · exact h a ha
  · exact const_dens _ _ le_rfl

theorem const_zero_law (a b : ℝ) : (Seg.const a b 0).law = 0 := by
  have : (Seg.const a b (0 : ℝ)).law = volume.withDensity fun x => ENNReal.ofReal ((Seg.const a b (0 : ℝ)).val x) := rfl
  rw [this]
  have h : (fun x => ENNReal.ofReal ((Seg.const a b (0 : ℝ)).val x)) = 0 := by
    funext x; rw [const_val]; simp
  rw [h]; exact withDensity_zero

/-- the law of a table: mass `p` at `x` for every entry -/
noncomputable def tableLaw (t : List (ℝ × ℝ)) : Measure ℝ := (t.map fun p => ENNReal.ofReal p.2 • Measure.dirac p.1).sum

theorem atomPieces_law : ∀ t : List (ℝ × ℝ), PF.law (atomPieces t) = tableLaw t
  | [] => by simp [atomPieces, tableLaw]
  | [p] => by simp [atomPieces, tableLaw, PF.law, Seg.law]
  | p :: r :: t => by
    have ih := atomPieces_law (r :: t)
    simp only [atomPieces, PF.law_cons, const_zero_law, ih, zero_add]
    rfl

theorem tableLaw_perm {t t' : List (ℝ × ℝ)} (h : t.Perm t') : tableLaw t = tableLaw t' := (h.map _).sum_eq

theorem tableLaw_cons (p : ℝ × ℝ) (t : List (ℝ × ℝ)) :
    tableLaw (p :: t) = ENNReal.ofReal p.2 • Measure.dirac p.1 + tableLaw t := by simp [tableLaw]

theorem tableLaw_finite : ∀ t : List (ℝ × ℝ), IsFiniteMeasure (tableLaw t)
  | [] => by simp only [tableLaw, List.map_nil, List.sum_nil]; infer_instance
  | p :: t => by
    have := tableLaw_finite t
    rw [tableLaw_cons]
    have : IsFiniteMeasure (ENNReal.ofReal p.2 • Measure.dirac p.1) := by
      refine ⟨?_⟩; simp
    infer_instance

theorem tableLaw_real : ∀ {t : List (ℝ × ℝ)}, (∀ p ∈ t, 0 ≤ p.2) → ∀ {A : Set ℝ}, MeasurableSet A → ∀ [DecidablePred (· ∈ A)],
    (tableLaw t).real A = ((t.filter fun p => decide (p.1 ∈ A)).map Prod.snd).sum
  | [], _, A, _, _ => by simp [tableLaw]
  | p :: t, h, A, hA, _ => by
    have := tableLaw_finite t
    have : IsFiniteMeasure (ENNReal.ofReal p.2 • Measure.dirac p.1) := by
      refine ⟨?_⟩; simp
    rw [tableLaw_cons, measureReal_add_apply, tableLaw_real (fun r hr => h r (by simp [hr])) hA]
    by_cases hp : p.1 ∈ A
    · rw [List.filter_cons_of_pos (by simpa using hp)]
      simp [Measure.real, Measure.dirac_apply' _ hA, hp, ENNReal.toReal_ofReal (h p (by simp))]
    · rw [List.filter_cons_of_neg (by simpa using hp)]
      simp [Measure.real, Measure.dirac_apply' _ hA, hp]

theorem addAll_append (eps : ℝ) : ∀ (s t : List (Seg ℝ)) (F : PF ℝ),
    PF.addAll eps F (s ++ t) = (PF.addAll eps F s).bind fun G => PF.addAll eps G t
  | [], t, F => rfl
  | a :: s, t, F => by
    simp only [List.cons_append, PF.addAll]
    cases h : PF.addSegment eps F a with
    | none => rfl
    | some G => exact addAll_append eps s t G

/-- the assembled function of a table with separated points -/
theorem discretePF_eq {eps : ℝ} (he : 0 ≤ eps) {t : List (ℝ × ℝ)} (hs : t.Pairwise fun a b => eps < |a.1 - b.1|) :
    discretePF eps t = some (atomPieces (tableSort t)) ∧ PF.WF eps (atomPieces (tableSort t)) := by
  have h1 : (tableSort t).Pairwise fun a b => eps < |a.1 - b.1| :=
    ((tableSort_perm t).pairwise_iff (fun {a b} h => by rwa [abs_sub_comm])).2 hs
  have h2 : (tableSort t).Pairwise fun a b => a.1 + eps < b.1 := by
    refine (h1.and (tableSort_sorted t)).imp fun {a b} h => ?_
    have := h.1
    rw [abs_sub_comm, abs_of_nonneg (by linarith [h.2])] at this
    linarith
  have hw := atomPieces_wf he h2
  refine ⟨?_, hw⟩
  obtain ⟨r, -, -, hr⟩ := C01_order_independent he (atomPieces (tableSort t)) hw.seg (hw.sorted.imp fun h => .inl h)
  have e1 := hr _ (List.Perm.refl _)
  rw [addAll_self he hw] at e1
  rw [discretePF, ← addAll_append, hr _ (atomPieces_perm _), ← e1]

/-! ### sampler -/

/-- the sampler as one recursion -/
noncomputable def sampleFrom (c : ℝ) : List (ℝ × ℝ) → ℝ → Option ℝ
  | [], _ => none
  | p :: t, u => if c + p.2 < u then sampleFrom (c + p.2) t u else some p.1

theorem sampleFrom_eq (u : ℝ) : ∀ (t : List (ℝ × ℝ)) (c : ℝ),
    (t.map Prod.fst)[searchsorted (cumsumFrom c (t.map Prod.snd)) u]? = sampleFrom c t u ∧
      searchsorted (cumsumFrom c (t.map Prod.snd)) u ≤ t.length
  | [], c => by simp [searchsorted, cumsumFrom, sampleFrom]
  | p :: t, c => by
    have ih := sampleFrom_eq u t (c + p.2)
    simp only [searchsorted, cumsumFrom, List.map_cons, sampleFrom] at ih ⊢
    by_cases h : c + p.2 < u
    · rw [if_pos h, List.takeWhile_cons_of_pos (by simpa using h), List.length_cons, List.getElem?_cons_succ]
      exact ⟨ih.1, by simpa using ih.2⟩
    · rw [if_neg h, List.takeWhile_cons_of_neg (by simpa using h)]
      simp

theorem discreteRand_eq (t : List (ℝ × ℝ)) (u : ℝ) : discreteRand t u = sampleFrom 0 (tableSort t) u := by
  have h := sampleFrom_eq u (tableSort t) 0
  unfold discreteRand
  simp only
  rw [if_neg (by simpa using h.2), h.1]

theorem sampleFrom_mem {t : List (ℝ × ℝ)} {c u x : ℝ} (h : sampleFrom c t u = some x) : x ∈ t.map Prod.fst := by
  induction t generalizing c with
  | nil => simp [sampleFrom] at h
  | cons p t ih =>
    rw [sampleFrom] at h
    split_ifs at h with hc
    · exact List.mem_cons_of_mem _ (ih h)
    · simp only [Option.some.injEq] at h; simp [h]

theorem sampleFrom_isSome {t : List (ℝ × ℝ)} {c u : ℝ} (hne : t ≠ []) (hu : u ≤ c + (t.map Prod.snd).sum) :
    ∃ x, sampleFrom c t u = some x := by
  induction t generalizing c with
  | nil => exact absurd rfl hne
  | cons p t ih =>
    rw [sampleFrom]
    split_ifs with hc
    · rw [List.map_cons, List.sum_cons, ← add_assoc] at hu
      by_cases ht : t = []
      · subst ht; simp at hu; exact absurd hc (not_lt.2 hu)
      · exact ih ht hu
    · exact ⟨_, rfl⟩

theorem sampleFrom_vol (x : ℝ) : ∀ {t : List (ℝ × ℝ)} {c : ℝ}, (∀ p ∈ t, 0 ≤ p.2) →
    MeasurableSet {u | u ∈ Ioc c (c + (t.map Prod.snd).sum) ∧ sampleFrom c t u = some x} ∧
    volume {u | u ∈ Ioc c (c + (t.map Prod.snd).sum) ∧ sampleFrom c t u = some x} =
      ENNReal.ofReal ((t.filter fun p => decide (p.1 = x)).map Prod.snd).sum
  | [], c, _ => by simp [sampleFrom]
  | p :: t, c, h => by
    have hp : 0 ≤ p.2 := h p (by simp)
    have ht : ∀ r ∈ t, 0 ≤ r.2 := fun r hr => h r (by simp [hr])
    have hS : 0 ≤ (t.map Prod.snd).sum := List.sum_nonneg (by simpa using fun b a h => ht (a, b) h)
    have hF : 0 ≤ ((t.filter fun p => decide (p.1 = x)).map Prod.snd).sum :=
      List.sum_nonneg (by
        intro y hy
        obtain ⟨r, hr, rfl⟩ := List.mem_map.1 hy
        exact ht r (List.mem_filter.1 hr).1)
    obtain ⟨m1, v1⟩ := sampleFrom_vol x (c := c + p.2) ht
    have hset : {u | u ∈ Ioc c (c + ((p :: t).map Prod.snd).sum) ∧ sampleFrom c (p :: t) u = some x} =
        {u | u ∈ Ioc c (c + p.2) ∧ p.1 = x} ∪
        {u | u ∈ Ioc (c + p.2) (c + p.2 + (t.map Prod.snd).sum) ∧ sampleFrom (c + p.2) t u = some x} := by
      ext u
      simp only [mem_ofPred_eq, mem_union, List.map_cons, List.sum_cons, sampleFrom, mem_Ioc, ← add_assoc]
      by_cases hu : c + p.2 < u
      · rw [if_pos hu]
        constructor
        · rintro ⟨⟨-, h2⟩, h3⟩; exact .inr ⟨⟨hu, h2⟩, h3⟩
        · rintro (⟨⟨-, h2⟩, -⟩ | ⟨⟨h1, h2⟩, h3⟩)
          · exact absurd hu (not_lt.2 h2)
          · exact ⟨⟨by linarith, h2⟩, h3⟩
      · rw [if_neg hu]
        simp only [Option.some.injEq]
        constructor
        · rintro ⟨⟨h1, -⟩, h3⟩; exact .inl ⟨⟨h1, not_lt.1 hu⟩, h3⟩
        · rintro (⟨⟨h1, h2⟩, h3⟩ | ⟨⟨h1, -⟩, -⟩)
          · exact ⟨⟨h1, by linarith⟩, h3⟩
          · exact absurd h1 hu
    have m2 : MeasurableSet {u | u ∈ Ioc c (c + p.2) ∧ p.1 = x} := by
      by_cases hx : p.1 = x
      · simp only [hx, and_true]; exact measurableSet_Ioc
      · simp only [hx, and_false]; exact MeasurableSet.const False
    rw [hset]
    refine ⟨m2.union m1, ?_⟩
    rw [measure_union ?_ m1, v1]
    · by_cases hx : p.1 = x
      · rw [List.filter_cons_of_pos (by simpa using hx), List.map_cons, List.sum_cons, ENNReal.ofReal_add hp hF]
        simp only [hx, and_true]
        show volume (Ioc c (c + p.2)) + _ = _
        rw [Real.volume_Ioc, add_sub_cancel_left]
      · rw [List.filter_cons_of_neg (by simpa using hx)]
        simp [hx]
    · refine Set.disjoint_left.2 ?_
      rintro u ⟨⟨-, h2⟩, -⟩ ⟨⟨h3, -⟩, -⟩
      exact absurd h3 (not_lt.2 h2)

end Pacal
