import Verif.Push.FoldAll

/-!
Absolute value and square of a random variable (C19, C20).

The full properties have no hypothesis `PF.ImagesApart` (atoms of `X` go to the same point or to points further apart
than the tolerance `eps`, 1e-14): the code merges atoms that come closer, see `C19_violated_merge` and
`C20_violated_merge`. For distributions without atoms the hypothesis is empty.
-/

set_option linter.unusedSimpArgs false

namespace Pacal
open MeasureTheory Set

/-- **C19.** The distribution built for `|X|` exists and has exactly the law of `|X|`. -/
theorem C19_law_partial {eps : ℝ} (he : 0 ≤ eps) {l : PF ℝ} (hl : PF.WF eps l) (hd : PF.Dens l)
    (ha : PF.ImagesApart eps (fun x => |x|) l) :
    ∃ r, PF.copyAbsComposition eps l = some r ∧ PF.WF eps r ∧ PF.Dens r ∧ PF.law r = (PF.law l).map fun x => |x| := by
  obtain ⟨l', P, N, e1, e2, hP, hN, dP, dN, hPN, hlaw⟩ := fold_main he abs_fold
    (R := fun f y => f |y| * |(1 : ℝ)|) (L := fun f y => f (-|y|) * |(1 : ℝ)|)
    (fun f y hy => by rw [abs_of_pos hy]) (fun f y hy => by rw [abs_of_pos hy]) hl hd ha
  obtain ⟨P', e3, hP', dP', lP'⟩ := C04_law he (PF.finites (PF.getBreaks N)) (getBreaks_finites _) P hP dP
  obtain ⟨P'', e4, -, -, hdir, -⟩ := C04_split he (PF.finites (PF.getBreaks N)) (getBreaks_finites _) P hP
  obtain rfl : P' = P'' := by rw [e3] at e4; exact Option.some.inj e4
  have hPN' : PF.AtomsApart eps P' N := by
    intro a m a' m' h1 h2
    rw [← mem_diracs, hdir, mem_diracs] at h1
    exact hPN a m a' m' h1 h2
  obtain ⟨r, e5, hr, dr, lr⟩ := C06_law_add he P' N hP' hN hPN' dP' dN
  refine ⟨r, ?_, hr, dr, by rw [lr, lP', hlaw]⟩
  rw [PF.copyAbsComposition, e1, Option.bind_some, Seg.absComposition, e2, Option.bind_some, e3, Option.bind_some, e5]

/-- **C20.** The distribution built for `X²` exists and has exactly the law of `X * X`. -/
theorem C20_law_partial {eps : ℝ} (he : 0 ≤ eps) {l : PF ℝ} (hl : PF.WF eps l) (hd : PF.Dens l)
    (ha : PF.ImagesApart eps (fun x => x * x) l) :
    ∃ r, PF.copySquareComposition eps l = some r ∧ PF.WF eps r ∧ PF.Dens r ∧
      PF.law r = (PF.law l).map fun x => x * x := by
  obtain ⟨l', P, N, e1, e2, hP, hN, dP, dN, hPN, hlaw⟩ := fold_main he square_fold
    (R := fun f y => f (y ^ (0.5 : ℝ)) * |0.5 / √y|) (L := fun f y => f (-(y ^ (0.5 : ℝ))) * |0.5 / √y|)
    (fun f y hy => rfl) (fun f y hy => rfl) hl hd ha
  rw [PF.copySquareComposition, e1, Option.bind_some, Seg.squareComposition, e2, Option.bind_some]
  by_cases h0 : N.length = 0
  · refine ⟨P, if_pos h0, hP, dP, ?_⟩
    rw [List.length_eq_zero_iff] at h0
    rw [← hlaw, h0, PF.law_nil, add_zero]
  rw [if_neg h0]
  by_cases h1 : P.length = 0
  · refine ⟨N, if_pos h1, hN, dN, ?_⟩
    rw [List.length_eq_zero_iff] at h1
    rw [← hlaw, h1, PF.law_nil, zero_add]
  rw [if_neg h1]
  obtain ⟨r, e5, hr, dr, lr⟩ := C06_law_add he P N hP hN hPN dP dN
  exact ⟨r, e5, hr, dr, by rw [lr, hlaw]⟩

/-- **C19** for continuous distributions, without restriction -/
theorem C19_law_continuous {eps : ℝ} (he : 0 ≤ eps) {l : PF ℝ} (hl : PF.WF eps l) (hd : PF.Dens l)
    (hc : ∀ s ∈ l, s.isDirac = false) :
    ∃ r, PF.copyAbsComposition eps l = some r ∧ PF.WF eps r ∧ PF.Dens r ∧ PF.law r = (PF.law l).map fun x => |x| :=
  C19_law_partial he hl hd (.of_continuous hc)

/-- **C20** for continuous distributions, without restriction -/
theorem C20_law_continuous {eps : ℝ} (he : 0 ≤ eps) {l : PF ℝ} (hl : PF.WF eps l) (hd : PF.Dens l)
    (hc : ∀ s ∈ l, s.isDirac = false) :
    ∃ r, PF.copySquareComposition eps l = some r ∧ PF.WF eps r ∧ PF.Dens r ∧
      PF.law r = (PF.law l).map fun x => x * x :=
  C20_law_partial he hl hd (.of_continuous hc)

/-- **C19 violated by the merging of atoms**: with half the mass on -1 and on `1 + eps`, the distribution built for
`|X|` is the constant `1 + eps`. -/
theorem C19_violated_merge {eps : ℝ} (he : 0 < eps) (h1 : eps < 1) :
    let l : PF ℝ := [.dirac (-1) (1 / 2), .dirac (1 + eps) (1 / 2)]
    PF.WF eps l ∧ PF.Dens l ∧ ∃ r, PF.copyAbsComposition eps l = some r ∧
      (PF.law r).real {1} = 0 ∧ ((PF.law l).map fun x => |x|).real {1} = 1 / 2 := by
  intro l
  have hd : PF.Dens l := dens_pair (by norm_num [Seg.Dens]) (by norm_num [Seg.Dens])
  have hab : (-1 : ℝ) ≤ 1 + eps := by linarith
  have hab' : eps < |(-1 : ℝ) - (1 + eps)| := by rw [abs_sub_comm, abs_of_nonneg] <;> linarith
  have hpos : (0 : ℝ) ≤ 1 + eps := by linarith
  have hd' : PF.Dens [Seg.dirac (1 + eps) (1 / 2 + 1 / 2)] := by intro s hs; simp at hs; subst hs; norm_num [Seg.Dens]
  refine ⟨wf_diracs _ _ hab hab', hd, [.dirac (1 + eps) (1 / 2 + 1 / 2)], ?_, ?_, ?_⟩
  · rw [PF.copyAbsComposition, split_diracs_eq he.le _ _ hab hab' [0] (by simp), Option.bind_some,
      Seg.absComposition, foldLoop_eq eps _ (fun s => match s with
        | .dirac a m => .dirac |a| m
        | s => s) _ [] [] (L' := [.dirac (1 + eps) (1 / 2)]) (R' := [.dirac 1 (1 / 2)])]
    · rw [Option.bind_some, split_dirac, Option.bind_some, add_merge _ _ (by linarith)]
      rw [abs_sub_comm, abs_of_nonneg] <;> linarith
    · intro s hs
      simp only [List.mem_cons, List.not_mem_nil, or_false] at hs
      rcases hs with rfl | rfl <;> rfl
    · have : (List.filter (fun s : Seg ℝ => decide (s.lo ≥ .fin 0)) [.dirac (-1) (1 / 2), .dirac (1 + eps) (1 / 2)]) =
          [.dirac (1 + eps) (1 / 2)] := by
        rw [List.filter_cons_of_neg, List.filter_cons_of_pos, List.filter_nil]
        · simpa [Seg.lo, extFin_le] using hpos
        · simp [Seg.lo, extFin_le]
      rw [this]
      simp [PF.addAll, addSegment_nil_dirac, abs_of_nonneg hpos]
    · have : (List.filter (fun s : Seg ℝ => !decide (s.lo ≥ .fin 0)) [.dirac (-1) (1 / 2), .dirac (1 + eps) (1 / 2)]) =
          [.dirac (-1) (1 / 2)] := by
        rw [List.filter_cons_of_pos, List.filter_cons_of_neg, List.filter_nil]
        · simpa [Seg.lo, extFin_le] using hpos
        · simp [Seg.lo, extFin_le]
      rw [this]
      simp [PF.addAll, addSegment_nil_dirac]
  · rw [law_singleton hd']; simp [PF.massAt, Seg.massAt, he.ne', he.ne]
  · rw [Measure.real, Measure.map_apply (by fun_prop) (measurableSet_singleton _)]
    have : (fun x : ℝ => |x|) ⁻¹' {1} = {1} ∪ {-1} := by
      ext x; simp only [mem_preimage, mem_singleton_iff, mem_union]; exact abs_eq zero_le_one
    rw [this]
    have : IsFiniteMeasure (PF.law l) := PF.law_finite hd
    show (PF.law l).real _ = _
    rw [measureReal_union (by norm_num) (measurableSet_singleton _), law_singleton hd, law_singleton hd]
    have e1 : (1 : ℝ) + eps ≠ 1 := by linarith
    have e2 : (1 : ℝ) + eps ≠ -1 := by linarith
    have e3 : (-1 : ℝ) ≠ 1 := by norm_num
    simp [l, PF.massAt, Seg.massAt, e1, e2, e3, e1.symm, e2.symm, e3.symm, he.ne', he.ne]

/-- **C20 violated by the merging of atoms**: half the mass on 0 and on `√eps`; the distribution built for `X²` is the
constant 0. -/
theorem C20_violated_merge {e : ℝ} (he : 0 < e) (h1 : e < 1) :
    let l : PF ℝ := [.dirac 0 (1 / 2), .dirac e (1 / 2)]
    PF.WF (e * e) l ∧ PF.Dens l ∧ ∃ r, PF.copySquareComposition (e * e) l = some r ∧
      (PF.law r).real {0} = 1 ∧ ((PF.law l).map fun x => x * x).real {0} = 1 / 2 := by
  intro l
  have hd : PF.Dens l := dens_pair (by norm_num [Seg.Dens]) (by norm_num [Seg.Dens])
  have hab' : e * e < |0 - e| := by rw [zero_sub, abs_neg, abs_of_pos he]; nlinarith
  have hd' : PF.Dens [Seg.dirac 0 (1 / 2 + 1 / 2)] := by intro s hs; simp at hs; subst hs; norm_num [Seg.Dens]
  refine ⟨wf_diracs _ _ he.le hab', hd, [.dirac 0 (1 / 2 + 1 / 2)], ?_, ?_, ?_⟩
  · rw [PF.copySquareComposition, split_diracs_eq (by positivity) _ _ he.le hab' [0] (by simp), Option.bind_some,
      Seg.squareComposition, foldLoop_eq (e * e) _ (fun s => match s with
        | .dirac a m => .dirac (a * a) m
        | s => s) _ [] [] (L' := [.dirac 0 (1 / 2 + 1 / 2)]) (R' := [])]
    · rfl
    · intro s hs
      simp only [List.mem_cons, List.not_mem_nil, or_false] at hs
      rcases hs with rfl | rfl <;> rfl
    · rw [List.filter_cons_of_pos, List.filter_cons_of_pos, List.filter_nil]
      · simp only [List.map_cons, List.map_nil, mul_zero, PF.addAll, addSegment_nil_dirac, Option.bind_some]
        rw [addSegment_merge _ _ (by rw [sub_zero, abs_of_pos (by positivity)])]
        rfl
      · simpa [Seg.lo, extFin_le] using he.le
      · simp [Seg.lo]
    · rw [List.filter_cons_of_neg, List.filter_cons_of_neg, List.filter_nil]
      · rfl
      · simpa [Seg.lo, extFin_le] using he.le
      · simp [Seg.lo]
  · rw [law_singleton hd']; norm_num [PF.massAt, Seg.massAt]
  · rw [Measure.real, Measure.map_apply (by fun_prop) (measurableSet_singleton _)]
    have : (fun x : ℝ => x * x) ⁻¹' {0} = {0} := by
      ext x; simp
    rw [this]
    show (PF.law l).real _ = _
    rw [law_singleton hd]
    simp [l, PF.massAt, Seg.massAt, he.ne', he.ne]

/-- non-vacuity: an atom at -1, a piece across 0 and a piece to its right: `P(|X| ≤ 1/2)` and `P(X² ≤ 1/4)` agree -/
example : ∃ r r', PF.copyAbsComposition (1 / 100) [.dirac (-1) (1 / 2), .const (-1) 1 (1 / 4)] = some r ∧
    PF.copySquareComposition (1 / 100) [.dirac (-1) (1 / 2), .const (-1) 1 (1 / 4)] = some r' ∧
    PF.law r (Iic (1 / 2)) = PF.law r' (Iic (1 / 4)) ∧ (PF.law r).real {1} = 1 / 2 := by
  have hw : PF.WF (1 / 100 : ℝ) [.dirac (-1) (1 / 2), .const (-1) 1 (1 / 4)] := by
    refine ⟨by simp [Seg.WF], ?_⟩
    simp only [List.pairwise_cons, List.mem_singleton, forall_eq, List.not_mem_nil, false_imp_iff, implies_true,
      List.Pairwise.nil, and_true]
    exact ⟨by simp [Seg.lo, Seg.hi, Ext.fin], by rintro a m a' m' - h; cases h⟩
  have hd : PF.Dens [Seg.dirac (-1) (1 / 2), .const (-1) 1 (1 / 4)] :=
    dens_pair (by norm_num [Seg.Dens]) (const_dens (-1) 1 (by norm_num))
  have ha : ∀ g, PF.ImagesApart (1 / 100) g [.dirac (-1) (1 / 2), .const (-1) 1 (1 / 4)] := by
    intro g a m a' m' h h'
    simp at h h'
    rw [h.1, h'.1]; exact .inl rfl
  obtain ⟨r, h1, -, -, h2⟩ := C19_law_partial (by norm_num) hw hd (ha _)
  obtain ⟨r', h1', -, -, h2'⟩ := C20_law_partial (by norm_num) hw hd (ha _)
  refine ⟨r, r', h1, h1', ?_, ?_⟩
  · rw [h2, h2', Measure.map_apply (by fun_prop) measurableSet_Iic, Measure.map_apply (by fun_prop) measurableSet_Iic]
    congr 1
    ext x
    simp only [mem_preimage, mem_Iic]
    rw [← abs_mul_abs_self x]
    have := abs_nonneg x
    constructor <;> intro <;> nlinarith
  · rw [h2, Measure.real, Measure.map_apply (by fun_prop) (measurableSet_singleton _)]
    have : (fun x : ℝ => |x|) ⁻¹' {1} = {1} ∪ {-1} := by
      ext x; simp only [mem_preimage, mem_singleton_iff, mem_union]; exact abs_eq zero_le_one
    rw [this]
    have : IsFiniteMeasure (PF.law [Seg.dirac (-1) (1 / 2), .const (-1) 1 (1 / 4)]) := PF.law_finite hd
    show (PF.law _).real _ = _
    rw [measureReal_union (by norm_num) (measurableSet_singleton _), law_singleton hd, law_singleton hd]
    norm_num [PF.massAt, Seg.massAt]

end Pacal
