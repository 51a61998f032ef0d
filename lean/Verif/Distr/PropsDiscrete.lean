import Verif.Distr.DiscreteLemmas

/-!
Discrete distributions (C25).  A table is a list of pairs `(x, p)`.

The full property has no separation hypothesis in the theorems about the law and the CDF; it fails there for tables
with a repeated point (`C25_violated_duplicate`) and for points closer than the merging tolerance
(`C25_violated_merge`).
-/

namespace Pacal
open MeasureTheory Set Transform

/-- **C25**, `pdf`: at every point the total probability listed for it, for every table -/
theorem C25_pdf (t : List (ℝ × ℝ)) (x : ℝ) :
    discretePdf t x = ((t.filter fun p => decide (p.1 = x)).map Prod.snd).sum := by
  rw [discretePdf, foldl_pdf, zero_add]
  exact (((tableSort_perm t).filter _).map _).sum_eq

/-- **C25**, law: for every table, in any order, of points farther apart than the tolerance the distribution is built
and its measure has the mass `p` at `x` for each entry and nothing else. -/
theorem C25_law_partial {eps : ℝ} (he : 0 ≤ eps) {t : List (ℝ × ℝ)} (hs : t.Pairwise fun a b => eps < |a.1 - b.1|)
    (hp : ∀ p ∈ t, 0 ≤ p.2) :
    ∃ r, discretePF eps t = some r ∧ PF.WF eps r ∧ PF.Dens r ∧
      PF.law r = (t.map fun p => ENNReal.ofReal p.2 • Measure.dirac p.1).sum := by
  obtain ⟨h1, h2⟩ := discretePF_eq he hs
  exact ⟨_, h1, h2, atomPieces_dens fun p h => hp p ((tableSort_perm t).mem_iff.1 h),
    (atomPieces_law _).trans (tableLaw_perm (tableSort_perm t))⟩

/-- **C25**, CDF: the step function of the table -/
theorem C25_cdf_partial {eps : ℝ} (he : 0 ≤ eps) {q : Quad} {p : QPar} (h : ExactQ q p) {t : List (ℝ × ℝ)} (hne : t ≠ [])
    (hs : t.Pairwise fun a b => eps < |a.1 - b.1|) (hp : ∀ p ∈ t, 0 ≤ p.2) (x : ℝ) :
    ∃ r, discretePF eps t = some r ∧
      PF.cdf eps q p r x = some ((t.filter fun p => decide (p.1 ≤ x)).map Prod.snd).sum := by
  obtain ⟨h1, h2⟩ := discretePF_eq he hs
  refine ⟨_, h1, ?_⟩
  have hp' : ∀ p ∈ tableSort t, 0 ≤ p.2 := fun p h => hp p ((tableSort_perm t).mem_iff.1 h)
  rw [C07_cdf_partial he h ?_ h2 (atomPieces_dens hp') (atomPieces_touching _), atomPieces_law,
    tableLaw_perm (tableSort_perm t), tableLaw_real hp measurableSet_Iic]
  · rfl
  · have : tableSort t ≠ [] := fun e => hne (e ▸ tableSort_perm t).nil_eq.symm
    match hh : tableSort t, this with
    | [a], _ => simp [atomPieces]
    | a :: b :: t, _ => simp [atomPieces]

/-- **C25**, sampler: whatever the table, the sampler only returns listed points -/
theorem C25_sampler_points (t : List (ℝ × ℝ)) {u x : ℝ} (h : discreteRand t u = some x) : x ∈ t.map Prod.fst := by
  rw [discreteRand_eq] at h
  exact ((tableSort_perm t).map _).mem_iff.1 (sampleFrom_mem h)

/-- **C25**, sampler: for every table of probabilities with total 1 each uniform draw from `[0, 1)` gives a sample, and
the draws that give `x` are a set of length equal to the total probability listed for `x`. -/
theorem C25_sampler {t : List (ℝ × ℝ)} (hp : ∀ p ∈ t, 0 ≤ p.2) (h1 : (t.map Prod.snd).sum = 1) :
    (∀ u ∈ Ico (0 : ℝ) 1, ∃ x, discreteRand t u = some x) ∧
    ∀ x, volume {u | u ∈ Ico (0 : ℝ) 1 ∧ discreteRand t u = some x} =
      ENNReal.ofReal ((t.filter fun p => decide (p.1 = x)).map Prod.snd).sum := by
  have hP := tableSort_perm t
  have hp' : ∀ p ∈ tableSort t, 0 ≤ p.2 := fun p h => hp p (hP.mem_iff.1 h)
  have h1' : ((tableSort t).map Prod.snd).sum = 1 := (hP.map _).sum_eq.trans h1
  constructor
  · intro u hu
    rw [discreteRand_eq]
    refine sampleFrom_isSome ?_ (by rw [h1', zero_add]; exact hu.2.le)
    intro e
    rw [e] at h1'
    simp at h1'
  · intro x
    obtain ⟨-, v⟩ := sampleFrom_vol x (c := 0) hp'
    rw [zero_add, h1', ((hP.filter _).map _).sum_eq] at v
    rw [← v]
    refine measure_congr ?_
    have : ∀ᵐ u : ℝ, u ≠ 0 ∧ u ≠ 1 := by
      have a0 : ∀ᵐ u : ℝ, u ≠ 0 := by simp [ae_iff]
      have a1 : ∀ᵐ u : ℝ, u ≠ 1 := by simp [ae_iff]
      filter_upwards [a0, a1] with u h0 h1 using ⟨h0, h1⟩
    filter_upwards [this] with u hu
    refine propext ?_
    show (u ∈ Ico (0 : ℝ) 1 ∧ discreteRand t u = some x) ↔ (u ∈ Ioc (0 : ℝ) 1 ∧ sampleFrom 0 (tableSort t) u = some x)
    rw [discreteRand_eq]
    refine and_congr_left fun _ => ?_
    simp only [mem_Ico, mem_Ioc]
    constructor
    · rintro ⟨a, b⟩; exact ⟨lt_of_le_of_ne a (Ne.symm hu.1), b.le⟩
    · rintro ⟨a, b⟩; exact ⟨a.le, lt_of_le_of_ne b hu.2⟩

/-! ### violations -/

/-- **C25** fails for a table with a repeated point: the density cannot be built (`addSegment` fails its assertion on the
zero piece of length 0), although `pdf` and the sampler accept the table. -/
theorem C25_violated_duplicate {eps : ℝ} (he : 0 ≤ eps) (x p p' : ℝ) : discretePF eps [(x, p), (x, p')] = none := by
  have hs : tableSort [(x, p), (x, p')] = [(x, p), (x, p')] ∨ tableSort [(x, p), (x, p')] = [(x, p'), (x, p)] := by
    have hP := tableSort_perm [(x, p), (x, p')]
    generalize tableSort [(x, p), (x, p')] = s at hP
    match s, hP.length_eq with
    | [a, b], _ =>
      have ha : a = (x, p) ∨ a = (x, p') := by simpa using hP.mem_iff.1 (by simp : a ∈ [a, b])
      rcases ha with rfl | rfl
      · left
        have := (List.perm_cons _).1 hP
        rw [List.singleton_perm_singleton.1 this]
      · right
        have := (List.perm_cons _).1 (hP.trans (List.Perm.swap _ _ _))
        rw [List.singleton_perm_singleton.1 this]
  have key : ∀ a b : ℝ, (PF.addAll eps [] (([(x, a), (x, b)] : List (ℝ × ℝ)).map fun p => Seg.dirac p.1 p.2)).bind
      (fun F => PF.addAll eps F (zeroPieces (([(x, a), (x, b)] : List (ℝ × ℝ)).map Prod.fst))) = none := by
    intro a b
    simp [PF.addAll, PF.addSegment, PF.mergeDirac, PF.insertSeg, bisectLeft, bisectBy, bisectGo, insort, zeroPieces,
      he, Seg.lt, Seg.gt, Seg.lo, Seg.hi]
  unfold discretePF
  rcases hs with hs | hs <;> rw [hs] <;> exact key _ _

/-- **C25** fails for points closer than the tolerance: they are merged into the first one. -/
theorem C25_violated_merge {eps : ℝ} (he : 0 < eps) :
    ∃ r, discretePF eps [(0, 1 / 2), (eps, 1 / 2)] = some r ∧ PF.getDirac 0 r = some 1 ∧ PF.getDirac eps r = none := by
  have hs : tableSort [(0, 1 / 2), (eps, 1 / 2)] = [(0, 1 / 2), (eps, 1 / 2)] := by
    refine List.mergeSort_of_pairwise ?_
    simp [pairLe, he]
  unfold discretePF
  rw [hs]
  simp [PF.addAll, PF.addSegment, PF.mergeDirac, PF.insertSeg, bisectLeft, bisectBy, bisectGo, insort, zeroPieces,
      he, Seg.lt, Seg.gt, Seg.lo, Seg.hi, abs_of_pos he, he.le]
  norm_num [PF.getDirac, he.ne]

/-- **C25**, finding: a draw above the total of the probabilities is an index error; the line meant to prevent it
(`i[i > len] = len`) has no effect. -/
theorem C25_finding_index_error {t : List (ℝ × ℝ)} (hp : ∀ p ∈ t, 0 ≤ p.2) {u : ℝ} (hu : (t.map Prod.snd).sum < u) :
    discreteRand t u = none := by
  have hP := tableSort_perm t
  have hp' : ∀ p ∈ tableSort t, 0 ≤ p.2 := fun p h => hp p (hP.mem_iff.1 h)
  rw [discreteRand_eq]
  rw [← (hP.map _).sum_eq] at hu
  generalize tableSort t = s at hp' hu
  have : ∀ (s : List (ℝ × ℝ)) (c : ℝ), (∀ p ∈ s, 0 ≤ p.2) → c + (s.map Prod.snd).sum < u → sampleFrom c s u = none := by
    intro s
    induction s with
    | nil => intros; rfl
    | cons p s ih =>
      intro c h1 h2
      rw [List.map_cons, List.sum_cons, ← add_assoc] at h2
      have : 0 ≤ (s.map Prod.snd).sum := List.sum_nonneg (by
        intro y hy
        obtain ⟨r, hr, rfl⟩ := List.mem_map.1 hy
        exact h1 r (by simp [hr]))
      rw [sampleFrom, if_pos (by linarith)]
      exact ih _ (fun r hr => h1 r (by simp [hr])) h2
  exact this s 0 hp' (by rwa [zero_add])

/-! ### the hypotheses can be met -/

/-- an unsorted table of three points -/
example : ∃ r, discretePF (1 / 100) [(2, 1 / 2), (-1, 1 / 3), (0, 1 / 6)] = some r ∧ (PF.law r).real (Ioi (-1)) = 2 / 3 := by
  have hp : ∀ p ∈ [((2 : ℝ), (1 / 2 : ℝ)), (-1, 1 / 3), (0, 1 / 6)], 0 ≤ p.2 := by simp
  obtain ⟨r, h1, -, -, h2⟩ := C25_law_partial (eps := 1 / 100) (by norm_num)
    (t := [(2, 1 / 2), (-1, 1 / 3), (0, 1 / 6)]) (by simp; norm_num) hp
  refine ⟨r, h1, ?_⟩
  rw [h2]
  refine (tableLaw_real hp measurableSet_Ioi).trans ?_
  norm_num [List.filter_cons]

/-- a table with repeated points for the sampler -/
example : volume {u | u ∈ Ico (0 : ℝ) 1 ∧ discreteRand [(2, 1 / 2), (-1, 1 / 3), (2, 1 / 6)] u = some 2} = ENNReal.ofReal (2 / 3) := by
  rw [(C25_sampler (t := [(2, 1 / 2), (-1, 1 / 3), (2, 1 / 6)]) (by simp) (by norm_num)).2]
  congr 1
  norm_num [List.filter_cons]

end Pacal
