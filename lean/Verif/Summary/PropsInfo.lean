import Verif.Summary.LemEx

/-!
Entropy, L2 distance and Kullback-Leibler distance (C75).

The full property: `entropy()` is the entropy of the distribution, `L2_distance` the L2 distance of two distributions and
`KL_distance` their Kullback-Leibler divergence, for all distributions.  `mix φ A a` is the measure with density `φ` and with
masses `a x` at the points `x` of `A`; every distribution of the package is of this form.  Proved with exact quadrature (as for
C58) and for integrands with a finite integral.  The Kullback-Leibler distance is right when the first distribution is
absolutely continuous with respect to the second and both have atoms at the same points; without either of them it is wrong
(`C75_violated_kl_support`, `C75_violated_kl_disjoint`, `C75_violated_kl_atoms`).
-/

namespace Pacal.Summary
open MeasureTheory Set Transform InformationTheory

variable {P : DPar} {l f g : PF ℝ} {φ ψ : ℝ → ℝ} {A : Finset ℝ} {a b : ℝ → ℝ}

/-- **C75**: the entropy of a distribution with density `φ` and atoms of masses `a` is `∫ -φ log φ + Σ -a log a` -/
theorem C75_entropy_partial (he : 0 ≤ P.eps) (hq : ExactQ P.q P.qp) (hw : PF.WF P.eps l) (hd : PF.Dens l) (hp : PosAtoms l)
    (hφ : Measurable φ) (h0 : ∀ x, 0 ≤ φ x) (ha : ∀ x ∈ A, 0 ≤ a x) (hl : PF.law l = mix φ A a)
    (hi : Integrable (fun x => φ x * Real.log (φ x)) volume) :
    entropy P l = some ((∫ x, -(φ x * Real.log (φ x))) + ∑ x ∈ A, -(a x * Real.log (a x))) := by
  classical
  have hv := val_ae hd hφ.aemeasurable h0 hl
  have hn : (fun x => Real.negMulLog (l.val x)) =ᵐ[volume] fun x => -(φ x * Real.log (φ x)) := by
    filter_upwards [hv] with x hx
    rw [hx, Real.negMulLog]; ring
  rw [entropy_eq he hq hw hd hp (hi.neg.congr hn.symm) (A := A ∪ l.atomSet)
    (fun _ _ h => Finset.mem_union_right _ (PF.mem_atomSet h)), integral_congr_ae hn]
  congr 2
  rw [← Finset.sum_subset Finset.subset_union_left]
  · refine Finset.sum_congr rfl fun x hx => ?_
    rw [mass_eq hd ha hl, if_pos hx, Real.negMulLog]; ring
  · intro x _ hx
    rw [mass_eq hd ha hl, if_neg hx, Real.negMulLog_zero]

/-- **C75** for continuous distributions: `∫ -φ log φ`, for every version `φ` of the density -/
theorem C75_entropy_continuous_partial (he : 0 ≤ P.eps) (hq : ExactQ P.q P.qp) (hw : PF.WF P.eps l) (hd : PF.Dens l) (hp : PosAtoms l)
    (hφ : Measurable φ) (h0 : ∀ x, 0 ≤ φ x) (hl : PF.law l = volume.withDensity fun x => ENNReal.ofReal (φ x))
    (hi : Integrable (fun x => φ x * Real.log (φ x)) volume) :
    entropy P l = some (∫ x, -(φ x * Real.log (φ x))) := by
  rw [C75_entropy_partial he hq hw hd hp hφ h0 (A := ∅) (a := 0) (by simp) (by simpa [mix] using hl) hi]
  simp

/-- **C75** for discrete distributions: `-Σ P(X = x) log P(X = x)` -/
theorem C75_entropy_discrete_partial (he : 0 ≤ P.eps) (hq : ExactQ P.q P.qp) (hw : PF.WF P.eps l) (hd : PF.Dens l) (hp : PosAtoms l)
    (ha : ∀ x ∈ A, 0 ≤ a x) (hl : PF.law l = ∑ x ∈ A, ENNReal.ofReal (a x) • Measure.dirac x) :
    entropy P l = some (-∑ x ∈ A, a x * Real.log (a x)) := by
  rw [C75_entropy_partial he hq hw hd hp (φ := 0) measurable_zero (by simp) ha (by
    rw [hl, mix]; simp) (by simp)]
  simp [Finset.sum_neg_distrib]

/-- **C75**: the L2 distance of two distributions with densities `φ` and `ψ` and with masses `a` and `b` at the points of `A`
is the square root of `∫ (φ - ψ)² + Σ (a - b)²`.  Either may have atoms where the other has none (`a x = 0` or `b x = 0`). -/
theorem C75_l2_partial (he : 0 ≤ P.eps) (hq : ExactQ P.q P.qp) (hf : PF.WF P.eps f) (hg : PF.WF P.eps g)
    (hfg : PF.AtomsApart P.eps f g) (df : PF.Dens f) (dg : PF.Dens g)
    (hφ : Measurable φ) (hψ : Measurable ψ) (h0 : ∀ x, 0 ≤ φ x) (p0 : ∀ x, 0 ≤ ψ x) (ha : ∀ x ∈ A, 0 ≤ a x) (hb : ∀ x ∈ A, 0 ≤ b x)
    (lf : PF.law f = mix φ A a) (lg : PF.law g = mix ψ A b) (hi : Integrable (fun x => (φ x - ψ x) ^ 2) volume) :
    l2Distance P f g = some (Real.sqrt ((∫ x, (φ x - ψ x) ^ 2) + ∑ x ∈ A, (a x - b x) ^ 2)) := by
  classical
  have hn : (fun x => (f.val x - g.val x) ^ 2) =ᵐ[volume] fun x => (φ x - ψ x) ^ 2 := by
    filter_upwards [val_ae df hφ.aemeasurable h0 lf, val_ae dg hψ.aemeasurable p0 lg] with x hx hy
    rw [hx, hy]
  rw [l2_eq he hq hf hg hfg (hi.congr hn.symm) (A := A ∪ (f.atomSet ∪ g.atomSet)) (by
    rintro x m (h | h)
    · exact Finset.mem_union_right _ (Finset.mem_union_left _ (PF.mem_atomSet h))
    · exact Finset.mem_union_right _ (Finset.mem_union_right _ (PF.mem_atomSet h))), integral_congr_ae hn]
  congr 3
  rw [← Finset.sum_subset Finset.subset_union_left]
  · refine Finset.sum_congr rfl fun x hx => ?_
    rw [mass_eq df ha lf, mass_eq dg hb lg, if_pos hx, if_pos hx]
  · intro x _ hx
    rw [mass_eq df ha lf, mass_eq dg hb lg, if_neg hx, if_neg hx, sub_zero]; norm_num

/-- **C75**: the Kullback-Leibler distance is the Kullback-Leibler divergence of the two distributions, if the first is
absolutely continuous with respect to the second, the divergence is finite, and the two have atoms at the same points -/
theorem C75_kl_partial (he : 0 ≤ P.eps) (hq : ExactQ P.q P.qp) (hf : PF.WF P.eps f) (hg : PF.WF P.eps g)
    (df : PF.Dens f) (dg : PF.Dens g) (tf : (PF.law f).real univ = 1) (tg : (PF.law g).real univ = 1)
    (pf : PosAtoms f) (pg : PosAtoms g) (hat : ∀ x, PF.law f {x} = 0 ↔ PF.law g {x} = 0)
    (hfin : klDiv (PF.law f) (PF.law g) ≠ ⊤) :
    klDistance P f g = some (klDiv (PF.law f) (PF.law g)).toReal := by
  have i1 := PF.law_finite df
  have i2 := PF.law_finite dg
  obtain ⟨hac, hint⟩ := klDiv_ne_top_iff.1 hfin
  have hm : ∀ {l : PF ℝ}, PF.WF P.eps l → PF.Dens l → PosAtoms l → ∀ x, (∃ m, Seg.dirac x m ∈ l) ↔ PF.law l {x} ≠ 0 := by
    intro l hw hd hp x
    have := PF.law_finite hd
    have e := law_singleton hd x
    constructor
    · rintro ⟨m, hm⟩ h0
      rw [Measure.real, h0, PF.mem_massAt he hw hm] at e
      exact (hp x m hm).ne e
    · intro h
      by_contra hc
      push Not at hc
      rw [massAt_zero hc, Measure.real, ENNReal.toReal_eq_zero_iff] at e
      exact e.elim h (measure_ne_top _ _)
  have hsame : ∀ x, (∃ m, Seg.dirac x m ∈ f) ↔ ∃ m, Seg.dirac x m ∈ g := fun x => by
    rw [hm hf df pf, hm hg dg pg, ne_eq, ne_eq, hat x]
  -- measurable versions of the densities
  obtain ⟨φ, mφ, pφ, eφ⟩ : ∃ φ : ℝ → ℝ, Measurable φ ∧ (∀ x, 0 ≤ φ x) ∧ (fun x => f.val x) =ᵐ[volume] φ := by
    have h := (PF.val_integrable df).aestronglyMeasurable.aemeasurable
    refine ⟨fun x => max (h.mk _ x) 0, h.measurable_mk.max measurable_const, fun x => le_max_right _ _, ?_⟩
    filter_upwards [h.ae_eq_mk, PF.val_nonneg df] with x hx h0
    rw [← hx, max_eq_left h0]
  obtain ⟨ψ, mψ, pψ, eψ⟩ : ∃ ψ : ℝ → ℝ, Measurable ψ ∧ (∀ x, 0 ≤ ψ x) ∧ (fun x => g.val x) =ᵐ[volume] ψ := by
    have h := (PF.val_integrable dg).aestronglyMeasurable.aemeasurable
    refine ⟨fun x => max (h.mk _ x) 0, h.measurable_mk.max measurable_const, fun x => le_max_right _ _, ?_⟩
    filter_upwards [h.ae_eq_mk, PF.val_nonneg dg] with x hx h0
    rw [← hx, max_eq_left h0]
  have hA : ∀ x ∈ f.atomSet, ∃ m, Seg.dirac x m ∈ f := by
    intro x hx
    simp only [PF.atomSet, List.mem_toFinset, List.mem_filterMap] at hx
    obtain ⟨s, hs, e⟩ := hx
    cases s <;> simp at e
    subst e
    exact ⟨_, hs⟩
  have ef : PF.law f = mix φ f.atomSet fun x => f.massAt x := by
    rw [law_mix df (A := f.atomSet) fun _ _ => PF.mem_atomSet, mix, mix]
    congr 1
    refine withDensity_congr_ae ?_
    filter_upwards [eφ] with x hx
    rw [hx]
  have eg : PF.law g = mix ψ f.atomSet fun x => g.massAt x := by
    rw [law_mix dg (A := f.atomSet) (fun x m h => by obtain ⟨n, hn⟩ := (hsame x).2 ⟨m, h⟩; exact PF.mem_atomSet hn), mix, mix]
    congr 1
    refine withDensity_congr_ae ?_
    filter_upwards [eψ] with x hx
    rw [hx]
  have ha : ∀ x ∈ f.atomSet, 0 < f.massAt x := fun x hx => by
    obtain ⟨m, hm⟩ := hA x hx; rw [PF.mem_massAt he hf hm]; exact pf _ _ hm
  have hb : ∀ x ∈ f.atomSet, 0 < g.massAt x := fun x hx => by
    obtain ⟨m, hm⟩ := (hsame x).1 (hA x hx); rw [PF.mem_massAt he hg hm]; exact pg _ _ hm
  have hu : PF.law f univ = PF.law g univ := by
    rw [← ofReal_measureReal, ← ofReal_measureReal (μ := PF.law g), tf, tg]
  rw [ef, eg] at hac hint hu
  · rw [ef] at i1
    rw [eg] at i2
    have hnull := mix_null mψ mφ pφ hac
    obtain ⟨k1, k2⟩ := mix_kl mφ mψ pφ pψ ha hb hac hint hu
    have ev : (fun x => f.val x * Real.log (f.val x / g.val x)) =ᵐ[volume] fun x => φ x * Real.log (φ x / ψ x) := by
      filter_upwards [eφ, eψ] with x hx hy
      rw [hx, hy]
    rw [kl_eq he hq hf hg df dg pf pg hsame (by
      filter_upwards [eφ, eψ, hnull] with x hx hy hn h
      rw [hx]; exact hn (hy ▸ h)) (k1.congr ev.symm) fun _ _ => PF.mem_atomSet, integral_congr_ae ev, ← k2, ← ef, ← eg]

/-- **C75**: in this case the distance is never negative, and it is 0 only for equal distributions -/
theorem C75_kl_zero_partial (he : 0 ≤ P.eps) (hq : ExactQ P.q P.qp) (hf : PF.WF P.eps f) (hg : PF.WF P.eps g)
    (df : PF.Dens f) (dg : PF.Dens g) (tf : (PF.law f).real univ = 1) (tg : (PF.law g).real univ = 1)
    (pf : PosAtoms f) (pg : PosAtoms g) (hat : ∀ x, PF.law f {x} = 0 ↔ PF.law g {x} = 0)
    (hfin : klDiv (PF.law f) (PF.law g) ≠ ⊤) :
    ∃ d, klDistance P f g = some d ∧ 0 ≤ d ∧ (d = 0 ↔ PF.law f = PF.law g) := by
  have i1 := PF.law_finite df
  have i2 := PF.law_finite dg
  refine ⟨_, C75_kl_partial he hq hf hg df dg tf tg pf pg hat hfin, ENNReal.toReal_nonneg, ?_⟩
  rw [ENNReal.toReal_eq_zero_iff, ← klDiv_eq_zero_iff]
  exact ⟨fun h => h.resolve_right hfin, .inl⟩

/-! ### violations -/

/-- **C75** fails where the second density is 0: the distance of `U(0, 2)` to `U(0, 1)` is computed as `-log 2`, a negative
number; the divergence is infinite. -/
theorem C75_violated_kl_support (q : Quad) (qp : QPar) (hq : ExactQ q qp) (big : ℝ) :
    let f : PF ℝ := [.const 0 2 (1 / 2)]
    let g : PF ℝ := [.const 0 1 1]
    PF.WF 0 f ∧ PF.Dens f ∧ (PF.law f).real univ = 1 ∧ PF.WF 0 g ∧ PF.Dens g ∧ (PF.law g).real univ = 1 ∧
      klDistance ⟨0, q, qp, big⟩ f g = some (-Real.log 2) ∧ -Real.log 2 < 0 ∧ klDiv (PF.law f) (PF.law g) = ⊤ := by
  intro f g
  refine ⟨unif_wf (by norm_num), unif_dens _ _ (by norm_num), ?_, unif_wf (by norm_num), unif_dens _ _ (by norm_num), ?_, ?_, ?_, ?_⟩
  · rw [unif_real _ _ (by norm_num) (by norm_num)]; norm_num
  · rw [unif_real _ _ (by norm_num) (by norm_num)]; norm_num
  · rw [kl_unif q qp big hq (by norm_num) (by norm_num) (by norm_num) (by norm_num)]
    simp
  · exact neg_lt_zero.2 (Real.log_pos (by norm_num))
  · refine klDiv_of_not_ac fun h => ?_
    have h1 : PF.law g (Ico 1 2) = 0 := by
      rw [unif_law _ _ (by norm_num), withDensity_apply _ measurableSet_Ico, setLIntegral_congr_fun measurableSet_Ico (g := fun _ => 0)]
      · simp
      · intro x hx
        have : x ∉ Ico (0 : ℝ) 1 := fun h => by linarith [hx.1, h.2]
        simp [indicator_of_notMem this]
    have h2 := h h1
    rw [unif_law _ _ (by norm_num), withDensity_apply _ measurableSet_Ico,
      setLIntegral_congr_fun measurableSet_Ico (g := fun _ => ENNReal.ofReal (1 / 2))] at h2
    · norm_num at h2
    · intro x hx
      have : x ∈ Ico (0 : ℝ) 2 := ⟨by linarith [hx.1], hx.2⟩
      simp [indicator_of_mem this]

/-- **C75** fails for distributions on disjoint sets: the distance of `U(0, 1)` to `U(2, 3)` is computed as 0. -/
theorem C75_violated_kl_disjoint (q : Quad) (qp : QPar) (hq : ExactQ q qp) (big : ℝ) :
    let f : PF ℝ := [.const 0 1 1]
    let g : PF ℝ := [.const 2 3 1]
    klDistance ⟨0, q, qp, big⟩ f g = some 0 ∧ PF.law f ≠ PF.law g := by
  intro f g
  refine ⟨?_, fun h => ?_⟩
  · rw [kl_unif q qp big hq (by norm_num) (by norm_num) (by norm_num) (by norm_num)]
    simp
  · have h1 : PF.law f (Ico 0 1) = 1 := by
      rw [unif_law _ _ (by norm_num), withDensity_apply _ measurableSet_Ico,
        setLIntegral_congr_fun measurableSet_Ico (g := fun _ => 1)]
      · simp
      · intro x hx
        simp [indicator_of_mem hx]
    have h2 : PF.law g (Ico 0 1) = 0 := by
      rw [unif_law _ _ (by norm_num), withDensity_apply _ measurableSet_Ico, setLIntegral_congr_fun measurableSet_Ico (g := fun _ => 0)]
      · simp
      · intro x hx
        have : x ∉ Ico (2 : ℝ) 3 := fun h => by linarith [hx.2, h.1]
        simp [indicator_of_notMem this]
    rw [h, h2] at h1
    exact zero_ne_one h1

/-- **C75** fails for an atom of the second distribution where the first has none: the distance of the constant 0 to a fair
coin with values 0 and 1 is computed as 0 (it is `log 2`). -/
theorem C75_violated_kl_atoms (q : Quad) (qp : QPar) (hq : ExactQ q qp) (big : ℝ) :
    let f : PF ℝ := [.dirac 0 1]
    let g : PF ℝ := [.dirac 0 (1 / 2), .dirac 1 (1 / 2)]
    PF.law f ≪ PF.law g ∧ klDistance ⟨0, q, qp, big⟩ f g = some 0 ∧ PF.law f ≠ PF.law g := by
  intro f g
  have lf : PF.law f = Measure.dirac 0 := by simp [PF.law, f, Seg.law]
  have lg : PF.law g = ENNReal.ofReal (1 / 2) • Measure.dirac 0 + ENNReal.ofReal (1 / 2) • Measure.dirac 1 := by
    simp [PF.law, g, Seg.law]
  have hg : PF.WF 0 g := by
    refine ⟨by simp [g, Seg.WF], ?_⟩
    refine List.pairwise_cons.2 ⟨?_, by simp⟩
    intro s hs
    rw [List.mem_singleton] at hs
    subst hs
    refine ⟨by simp [Seg.hi, Seg.lo, Ext.fin], ?_⟩
    intro a m a' m' h1 h2
    cases h1; cases h2; norm_num
  have hf : PF.WF 0 f := ⟨by simp [f, Seg.WF], by simp [f]⟩
  refine ⟨?_, ?_, fun h => ?_⟩
  · intro B hB
    rw [lg, Measure.add_apply, add_eq_zero, Measure.smul_apply, smul_eq_mul, mul_eq_zero] at hB
    rw [lf]
    exact hB.1.resolve_left (by norm_num)
  · obtain ⟨k1, e1, w1, v1, v1', m1⟩ := mapFn_ok le_rfl (safeLog big) hf (by intro a m h; simp [f] at h; rw [h.2]; norm_num)
    obtain ⟨k2, e2, w2, v2, v2', m2⟩ := mapFn_ok le_rfl (safeLog big) hg (by intro a m h; simp [g] at h; rcases h with ⟨-, rfl⟩ | ⟨-, rfl⟩ <;> norm_num)
    have a1 : ∀ x n, Seg.dirac x n ∈ k1 ↔ x = 0 ∧ n = 0 := by
      intro x n
      rw [m1]
      simp [f, safeLog]
    have a2 : ∀ x n, Seg.dirac x n ∈ k2 ↔ (x = 0 ∨ x = 1) ∧ n = Real.log (1 / 2) := by
      intro x n
      have : safeLog big (1 / 2) = Real.log (1 / 2) := safeLog_pos (by norm_num)
      rw [m2]
      constructor
      · rintro ⟨m, hm, rfl⟩
        simp only [g, List.mem_cons, Seg.dirac.injEq, List.not_mem_nil, or_false] at hm
        rcases hm with ⟨rfl, rfl⟩ | ⟨rfl, rfl⟩ <;> simp only [this] <;> simp
      · rintro ⟨hx, rfl⟩
        exact ⟨1 / 2, by rcases hx with rfl | rfl <;> simp [g], this.symm⟩
    have f0 : PF.getDirac 0 f = some 1 := (getDirac_iff le_rfl hf).2 (by simp [f])
    have f1 : PF.getDirac 1 f = none := getDirac_none.2 (by simp [f])
    have k10 : PF.getDirac 0 k1 = some 0 := (getDirac_iff le_rfl w1).2 ((a1 _ _).2 (by simp))
    have k11 : PF.getDirac 1 k1 = none := getDirac_none.2 (by simp [a1])
    have k20 : PF.getDirac 0 k2 = some (Real.log (1 / 2)) := (getDirac_iff le_rfl w2).2 ((a2 _ _).2 (by simp))
    have k21 : PF.getDirac 1 k2 = some (Real.log (1 / 2)) := (getDirac_iff le_rfl w2).2 ((a2 _ _).2 (by simp))
    obtain ⟨d, e3, w3, v3, c3⟩ := operation_ok le_rfl (op := fun x y : ℝ => x - y) (by simp) w1 w2 (by
      intro a m a' m' ha ha'
      obtain ⟨rfl, rfl⟩ := (a1 _ _).1 ha
      obtain ⟨h | h, rfl⟩ := (a2 _ _).1 ha'
      · exact .inl h.symm
      · subst h; right; norm_num)
    have hd01 : ∀ x m, Seg.dirac x m ∈ d → x = 0 ∨ x = 1 := by
      intro x m hm
      by_contra hx
      have := c3 x
      rw [(getDirac_iff le_rfl w3).2 hm, getDirac_none.2 fun n hn => hx (.inl ((a1 _ _).1 hn).1),
        getDirac_none.2 fun n hn => hx ((a2 _ _).1 hn).1] at this
      cases this
    obtain ⟨r, e4, w4, v4, c4⟩ := operation_ok le_rfl (op := fun x y : ℝ => x * y) (by simp) hf w3 (by
      intro a m a' m' ha ha'
      simp only [f, List.mem_singleton, Seg.dirac.injEq] at ha
      obtain ⟨rfl, rfl⟩ := ha
      rcases hd01 a' m' ha' with h | h
      · exact .inl h.symm
      · subst h; right; norm_num)
    have hv : (fun x => r.val x) = fun _ => 0 := by
      funext x
      rw [v4]
      simp [f, PF.val, dirac_val]
    have hr : r.integrate q qp ⊥ ⊤ = (∫ x, r.val x) + ∑ x ∈ ({0, 1} : Finset ℝ), r.massAt x :=
      integrate_total hq w4 (by rw [hv]; simp) (by
        intro x m hm
        by_contra hx
        simp only [Finset.mem_insert, Finset.mem_singleton] at hx
        have := c4 x
        rw [(getDirac_iff le_rfl w4).2 hm, getDirac_none.2 fun n hn => hx (hd01 x n hn), getDirac_none.2 fun n hn => by
          simp only [f, List.mem_singleton, Seg.dirac.injEq] at hn; exact hx (.inl hn.1)] at this
        cases this)
    rw [klDistance, e1, Option.bind_some, e2, Option.bind_some, e3, Option.bind_some, e4, Option.map_some, hr, hv,
      Finset.sum_pair zero_ne_one, massAt_eq_getDirac le_rfl w4, massAt_eq_getDirac le_rfl w4, c4, c4, c3, c3, f0, f1, k10, k11, k20, k21]
    simp [combMass]
  · have := congrArg (fun μ => μ {(1 : ℝ)}) h
    simp [lf, lg] at this
    exact absurd this.symm (by simp)

/-! ### the hypotheses can be met -/

/-- the entropy of `U(0, 2)` is `log 2` -/
example (q : Quad) (qp : QPar) (hq : ExactQ q qp) (big : ℝ) : entropy ⟨0, q, qp, big⟩ [.const 0 2 (1 / 2)] = some (Real.log 2) := by
  have hi : (fun x : ℝ => (Ico (0 : ℝ) 2).indicator (fun _ => (1 / 2 : ℝ)) x * Real.log ((Ico (0 : ℝ) 2).indicator (fun _ => (1 / 2 : ℝ)) x)) =
      (Ico (0 : ℝ) 2).indicator fun _ => 1 / 2 * Real.log (1 / 2) := by
    funext x
    by_cases hx : x ∈ Ico (0 : ℝ) 2
    · simp only [indicator_of_mem hx]
    · simp only [indicator_of_notMem hx, zero_mul]
  rw [C75_entropy_continuous_partial le_rfl hq (unif_wf (by norm_num)) (unif_dens _ _ (by norm_num)) (by intro a m h; simp at h)
    (measurable_const.indicator measurableSet_Ico) (fun x => indicator_nonneg (fun _ _ => by norm_num) x)
    (unif_law 0 2 (by norm_num)) (by
      rw [hi, integrable_indicator_iff measurableSet_Ico]; exact integrableOn_const (by simp)), integral_neg, hi,
    integral_indicator measurableSet_Ico]
  simp

/-- the distance between two coins -/
example (q : Quad) (qp : QPar) (hq : ExactQ q qp) (big : ℝ) :
    let f : PF ℝ := [.dirac 0 (1 / 4), .dirac 1 (3 / 4)]
    let g : PF ℝ := [.dirac 0 (1 / 2), .dirac 1 (1 / 2)]
    ∃ d, klDistance ⟨0, q, qp, big⟩ f g = some d ∧ 0 < d := by
  intro f g
  have df : PF.Dens f := coin_dens (by norm_num) (by norm_num)
  have dg : PF.Dens g := coin_dens (by norm_num) (by norm_num)
  have := PF.law_finite df
  have := PF.law_finite dg
  have nf := coin_null (p := 1 / 4) (r := 3 / 4) (by norm_num) (by norm_num)
  have ng := coin_null (p := 1 / 2) (r := 1 / 2) (by norm_num) (by norm_num)
  obtain ⟨d, h1, h2, h3⟩ := C75_kl_zero_partial (P := ⟨0, q, qp, big⟩) le_rfl hq (coin_wf _ _) (coin_wf _ _) df dg
    (coin_real (by norm_num) (by norm_num) (by norm_num)) (coin_real (by norm_num) (by norm_num) (by norm_num))
    (by intro a m h; simp at h; rcases h with ⟨-, rfl⟩ | ⟨-, rfl⟩ <;> norm_num)
    (by intro a m h; simp at h; rcases h with ⟨-, rfl⟩ | ⟨-, rfl⟩ <;> norm_num)
    (fun x => by rw [nf _ (measurableSet_singleton x), ng _ (measurableSet_singleton x)])
    (klDiv_ne_top_iff.2 ⟨by
      refine Measure.AbsolutelyContinuous.mk fun B hB h => ?_
      rw [ng _ hB] at h
      rwa [nf _ hB], by
      rw [coin_law, integrable_add_measure]
      exact ⟨(integrable_dirac (by simp)).smul_measure ENNReal.ofReal_ne_top, (integrable_dirac (by simp)).smul_measure ENNReal.ofReal_ne_top⟩⟩)
  refine ⟨d, h1, lt_of_le_of_ne h2 fun h0 => ?_⟩
  have : (PF.law f).real {0} = (PF.law g).real {0} := by rw [h3.1 h0.symm]
  rw [law_singleton df, law_singleton dg] at this
  simp [f, g, PF.massAt, Seg.massAt] at this

/-- the L2 distance of `U(0, 1)` and the constant 0 -/
example (q : Quad) (qp : QPar) (hq : ExactQ q qp) (big : ℝ) :
    l2Distance ⟨0, q, qp, big⟩ [.const 0 1 1] [.dirac 0 1] = some (Real.sqrt 2) := by
  have hs : (fun x : ℝ => ((Ico (0 : ℝ) 1).indicator (fun _ => (1 : ℝ)) x - (fun _ => (0 : ℝ)) x) ^ 2) = (Ico (0 : ℝ) 1).indicator fun _ => 1 := by
    funext x
    by_cases hx : x ∈ Ico (0 : ℝ) 1
    · simp [indicator_of_mem hx]
    · simp [indicator_of_notMem hx]
  rw [C75_l2_partial (A := {0}) (a := fun _ => 0) (b := fun _ => 1) (φ := (Ico (0 : ℝ) 1).indicator fun _ => 1) (ψ := fun _ => 0)
    le_rfl hq (unif_wf (by norm_num)) ⟨by simp [Seg.WF], by simp⟩ (by intro a m a' m' h; simp at h) (unif_dens _ _ (by norm_num))
    (by intro s hs; rw [List.mem_singleton] at hs; subst hs; exact zero_le_one)
    (measurable_const.indicator measurableSet_Ico) measurable_const (fun x => indicator_nonneg (fun _ _ => by norm_num) x) (by simp)
    (by simp) (by simp) (by rw [unif_law _ _ (by norm_num), mix]; simp) (by simp [mix, PF.law, Seg.law]) (by
      rw [hs, integrable_indicator_iff measurableSet_Ico]; exact integrableOn_const (by simp)), hs, integral_indicator measurableSet_Ico]
  norm_num

end Pacal.Summary
