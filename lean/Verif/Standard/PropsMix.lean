import Verif.Standard.LemMix
import Verif.Distr.PropsDiscrete

/-!
Mixtures (C48).  A mixture is a list `cs` of pairs (weight, density of the component).

The full property has no hypothesis on the atoms of different components in the theorems on values and laws; without it
atoms closer than the merging tolerance are merged (`C48_violated_close_atoms`).  The sampler does not have the property
(`C48_violated_sampler`).
-/

namespace Pacal.Standard
open MeasureTheory Set

/-- **C48**, values: for all weights and well formed components, whose atoms coincide or are farther apart than the
tolerance, the mixture is built and its density and its atoms are the weighted sums. -/
theorem C48_mix_values_partial {K : Type*} [Field K] [LinearOrder K] [IsStrictOrderedRing K] {eps : K} (he : 0 ≤ eps)
    {cs : List (K × PF K)} (hne : cs ≠ []) (hw : ∀ c ∈ cs, PF.WF eps c.2)
    (hp : cs.Pairwise fun c d => PF.AtomsApart eps c.2 d.2) :
    ∃ r, mixPF eps (cs.map Prod.fst) (cs.map Prod.snd) = some r ∧ PF.WF eps r ∧
      (∀ x, r.val x = (cs.map fun c => c.1 * c.2.val x).sum) ∧
      (∀ x, r.massAt x = (cs.map fun c => c.1 * c.2.massAt x).sum) :=
  mix_ok he hne hw hp

/-- **C48**, law: for nonnegative weights the law of the mixture is the weighted sum of the laws of the components; it is
a probability law if they are and the weights add up to 1. -/
theorem C48_mix_law_partial {eps : ℝ} (he : 0 ≤ eps) {cs : List (ℝ × PF ℝ)} (hne : cs ≠ []) (hw : ∀ c ∈ cs, PF.WF eps c.2)
    (hp : cs.Pairwise fun c d => PF.AtomsApart eps c.2 d.2) (h0 : ∀ c ∈ cs, 0 ≤ c.1) (hd : ∀ c ∈ cs, PF.Dens c.2) :
    ∃ r, mixPF eps (cs.map Prod.fst) (cs.map Prod.snd) = some r ∧ PF.WF eps r ∧ PF.Dens r ∧
      PF.law r = (cs.map fun c => ENNReal.ofReal c.1 • PF.law c.2).sum ∧
      ((∀ c ∈ cs, IsProbabilityMeasure (PF.law c.2)) → (cs.map Prod.fst).sum = 1 → IsProbabilityMeasure (PF.law r)) := by
  obtain ⟨r, a, b, c, d⟩ := mix_ok he hne hw hp
  have hD := flatMix_dens h0 hd
  have hv : ∀ x, PF.val r x = PF.val (flatMix cs) x := fun x => by rw [c, flatMix_val]
  have hm : ∀ x, PF.massAt r x = PF.massAt (flatMix cs) x := fun x => by rw [d, flatMix_mass]
  have hr : PF.Dens r := PF.dens_of he b (by simpa only [hv] using PF.val_nonneg hD)
    (by simpa only [hv] using PF.val_integrable hD) (fun x => by rw [hm]; exact PF.massAt_nonneg hD x)
  have hl : PF.law r = (cs.map fun c => ENNReal.ofReal c.1 • PF.law c.2).sum :=
    (PF.law_ext hD hr hv hm).trans (flatMix_law h0)
  refine ⟨r, a, b, hr, hl, fun h1 hs => ⟨?_⟩⟩
  rw [hl]
  have key : ∀ cs : List (ℝ × PF ℝ), (∀ c ∈ cs, 0 ≤ c.1) → (∀ c ∈ cs, IsProbabilityMeasure (PF.law c.2)) →
      (cs.map fun c => ENNReal.ofReal c.1 • PF.law c.2).sum univ = ENNReal.ofReal (cs.map Prod.fst).sum := by
    intro cs
    induction cs with
    | nil => intros; simp
    | cons c cs ih =>
      intro h0 h1
      have := h1 c (by simp)
      rw [List.map_cons, List.sum_cons, Measure.add_apply, ih (fun d h => h0 d (by simp [h])) fun d h => h1 d (by simp [h]),
        Measure.smul_apply, measure_univ, smul_eq_mul, mul_one, List.map_cons, List.sum_cons, ENNReal.ofReal_add (h0 c (by simp))]
      exact List.sum_nonneg fun y hy => by
        obtain ⟨d, hd, rfl⟩ := List.mem_map.1 hy
        exact h0 d (by simp [hd])
  rw [key cs h0 h1, hs, ENNReal.ofReal_one]

/-- **C48**, construction: weights and components in different numbers are rejected, and so is the empty mixture. -/
theorem C48_mix_rejects {K : Type*} [Field K] [LinearOrder K] (eps : K) (probs : List K) (distrs : List (PF K))
    (h : probs.length ≠ distrs.length ∨ probs = [] ∨ distrs = []) : mixPF eps probs distrs = none := by
  rw [mixPF]
  rcases h with h | rfl | rfl
  · exact if_neg h
  · split_ifs <;> rfl
  · rw [List.zip_nil_right]
    split_ifs <;> rfl

/-- **C48**, range: the range of a mixture contains the ranges of the components, and both ends are ends of components. -/
theorem C48_range {α : Type*} [LinearOrder α] {rs : List (α × α)} (hne : rs ≠ []) :
    ∃ a b, mixRange rs = some (a, b) ∧ (∀ r ∈ rs, a ≤ r.1 ∧ r.2 ≤ b) ∧ (∃ r ∈ rs, a = r.1) ∧ ∃ r ∈ rs, b = r.2 := by
  obtain ⟨r, t, rfl⟩ := List.exists_cons_of_ne_nil hne
  obtain ⟨a1, a2, a3⟩ := foldl_min_le t r.1
  obtain ⟨b1, b2, b3⟩ := le_foldl_max t r.2
  refine ⟨_, _, rfl, ?_, ?_, ?_⟩
  · intro s hs
    rcases List.mem_cons.1 hs with rfl | hs
    · exact ⟨a1, b1⟩
    · exact ⟨a2 s hs, b2 s hs⟩
  · rcases a3 with h | ⟨s, hs, h⟩
    · exact ⟨r, by simp, h⟩
    · exact ⟨s, by simp [hs], h⟩
  · rcases b3 with h | ⟨s, hs, h⟩
    · exact ⟨r, by simp, h⟩
    · exact ⟨s, by simp [hs], h⟩

/-- **C48**, sampler, the part that holds: whatever components are chosen, every sample is a draw of the component chosen
for it, the draws of a component are used once each and in order. -/
theorem C48_sampler_partial {nmix : ℕ} {rand : ℕ → ℕ → List ℝ} (hr : ∀ k n, (rand k n).length = n) {idx : List ℕ}
    (hi : ∀ k ∈ idx, k < nmix) :
    ∃ r, mixRand nmix rand idx = some r ∧ r.length = idx.length ∧
      ∀ i k, idx[i]? = some k → r[i]? = (rand k (idx.count k))[(idx.take i).count k]? := by
  obtain ⟨r, a, b, c⟩ := mixRand_ok rand hr idx nmix
  refine ⟨r, a, b, fun i k h => ?_⟩
  have hc : ∀ l : List ℕ, mixCount l k = l.count k := fun l => by
    rw [mixCount, List.count, List.countP_eq_length_filter]
    congr 2
  rw [c i k h (hi k (List.mem_of_getElem? h)), hc, hc]

/-! ### violations -/

/-- **C48**, sampler: each of the `nmix` components is chosen with probability `1 / nmix`, whatever the weights. -/
theorem C48_finding_sampler_uniform {nmix k : ℕ} (hk : k < nmix) :
    volume {u | u ∈ Ico (0 : ℝ) 1 ∧ mixIndex nmix u = k} = ENNReal.ofReal (1 / nmix) := by
  have hn : (0 : ℝ) < nmix := by exact_mod_cast (by omega : 0 < nmix)
  have h1 : ((k : ℝ) + 1) ≤ nmix := by exact_mod_cast hk
  have : {u | u ∈ Ico (0 : ℝ) 1 ∧ mixIndex nmix u = k} = Ico ((k : ℝ) / nmix) (((k : ℝ) + 1) / nmix) := by
    ext u
    simp only [mem_ofPred_eq, mem_Ico, mixIndex, div_le_iff₀ hn, lt_div_iff₀ hn]
    constructor
    · rintro ⟨⟨h0, _⟩, h⟩
      rw [Nat.floor_eq_iff (by positivity)] at h
      constructor <;> linarith [h.1, h.2]
    · rintro ⟨h2, h3⟩
      have hu : 0 ≤ u := by
        by_contra hu
        have : u * nmix < 0 := mul_neg_of_neg_of_pos (not_le.1 hu) hn
        have : (0 : ℝ) ≤ k := by positivity
        linarith
      refine ⟨⟨hu, ?_⟩, ?_⟩
      · by_contra h
        have : 1 * (nmix : ℝ) ≤ u * nmix := mul_le_mul_of_nonneg_right (not_lt.1 h) hn.le
        linarith
      · rw [Nat.floor_eq_iff (by positivity)]
        constructor <;> linarith
  rw [this, Real.volume_Ico]
  congr 1
  field_simp
  ring

/-- **C48** fails for the sampler: for a mixture of the constants 0 and 1 with the weights 1/4 and 3/4, whose law puts 1/4
on 0, the sampler returns 0 with probability 1/2. -/
theorem C48_violated_sampler :
    (∃ r, mixPF (1 / 100) [1 / 4, 3 / 4] [[Seg.dirac (0 : ℝ) 1], [Seg.dirac 1 1]] = some r ∧
      (PF.law r) {0} = ENNReal.ofReal (1 / 4)) ∧
    volume {u | u ∈ Ico (0 : ℝ) 1 ∧ mixRand 2 (fun k n => List.replicate n (k : ℝ)) [mixIndex 2 u] = some [0]} =
      ENNReal.ofReal (1 / 2) := by
  constructor
  · have hw : ∀ x : ℝ, PF.WF (1 / 100 : ℝ) [Seg.dirac x 1] := fun x =>
      ⟨by simp [Seg.WF], by simp⟩
    obtain ⟨r, a, -, -, b, -⟩ := C48_mix_law_partial (eps := 1 / 100) (by norm_num)
      (cs := [(1 / 4, [Seg.dirac (0 : ℝ) 1]), (3 / 4, [Seg.dirac 1 1])]) (by simp)
      (by simpa only [List.mem_cons, List.not_mem_nil, or_false, forall_eq_or_imp, forall_eq] using ⟨hw 0, hw 1⟩)
      (by
        simp only [List.pairwise_cons, List.mem_cons, List.not_mem_nil, or_false, forall_eq, PF.AtomsApart, Seg.dirac.injEq]
        refine ⟨?_, by simp⟩
        rintro a m a' m' ⟨rfl, -⟩ ⟨rfl, -⟩
        norm_num) (by norm_num)
      (by simp [PF.Dens, Seg.Dens])
    refine ⟨r, a, ?_⟩
    rw [b]
    simp [PF.law, Seg.law]
  · have := C48_finding_sampler_uniform (nmix := 2) (k := 0) (by norm_num)
    rw [show (1 / 2 : ℝ) = 1 / (2 : ℕ) by norm_num, ← this]
    congr 1
    ext u
    simp only [mem_ofPred_eq]
    refine and_congr_right fun hu => ?_
    have h2 : mixIndex 2 u < 2 := by
      rw [mixIndex, Nat.floor_lt (by have := hu.1; positivity)]
      have := hu.2
      push_cast
      linarith
    generalize mixIndex 2 u = k at h2
    interval_cases k <;> simp [mixRand, maskAssign, mixCount, List.range_succ]

/-- **C48** fails for components with atoms closer than the tolerance: all the mass goes to the first one. -/
theorem C48_violated_close_atoms :
    ∃ r, mixPF (1 / 100 : ℚ) [1 / 2, 1 / 2] [[Seg.dirac (0 : ℚ) 1], [Seg.dirac (1 / 200) 1]] = some r ∧
      r.massAt 0 = 1 ∧ r.massAt (1 / 200) = 0 := by
  have h : (mixPF (1 / 100 : ℚ) [1 / 2, 1 / 2] [[Seg.dirac (0 : ℚ) 1], [Seg.dirac (1 / 200) 1]]).map
      (fun r => (r.massAt 0, r.massAt (1 / 200))) = some (1, 0) := by decide +kernel
  obtain ⟨r, h1, h2⟩ := Option.map_eq_some_iff.1 h
  exact ⟨r, h1, (Prod.ext_iff.1 h2).1, (Prod.ext_iff.1 h2).2⟩

/-! ### the hypotheses can be met -/

/-- a uniform law on `[0, 1]` and an atom inside of it -/
example : ∃ r, mixPF (1 / 100 : ℚ) [1 / 4, 3 / 4] [[Seg.const (0 : ℚ) 1 1], [Seg.dirac (1 / 2) 1]] = some r ∧
    r.val (1 / 3) = 1 / 4 ∧ r.massAt (1 / 2) = 3 / 4 := by
  obtain ⟨r, a, -, b, c⟩ := C48_mix_values_partial (eps := (1 / 100 : ℚ)) (by norm_num)
    (cs := [(1 / 4, [Seg.const (0 : ℚ) 1 1]), (3 / 4, [Seg.dirac (1 / 2) 1])]) (by simp)
    (by simp only [List.mem_cons, List.not_mem_nil, or_false, forall_eq_or_imp, forall_eq]
        exact ⟨⟨by simp [Seg.WF], by simp⟩, ⟨by simp [Seg.WF], by simp⟩⟩) (by simp [PF.AtomsApart])
  refine ⟨r, a, ?_, ?_⟩
  · rw [b]; decide +kernel
  · rw [c]; decide +kernel

example : mixRange [((0 : ℚ), (2 : ℚ)), (-1, 1), (1, 5)] = some (-1, 5) := by decide +kernel

example : mixRand 3 (fun k n => (List.range n).map fun j => ((10 * k + j : ℕ) : ℝ)) [2, 0, 2] = some [20, 0, 21] := by
  simp [mixRand, maskAssign, mixCount, List.range_succ]
  norm_num

end Pacal.Standard
