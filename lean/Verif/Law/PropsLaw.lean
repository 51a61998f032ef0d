import Verif.Law.IntegrateLemmas
import Verif.Segments.PropsSplit

/-!
Splitting, restricting and adding piecewise functions seen as measures (C04, C05, C06), and integration of a
piecewise function over an interval (C58).
-/

namespace Pacal
open MeasureTheory Set Transform

/-! ### C04, C05, C06 -/

/-- **C04**, probabilities: splitting does not change the measure. -/
theorem C04_law {eps : ℝ} (he : 0 ≤ eps) (points : List ℝ) (hp : points.Pairwise (· < ·)) (l : PF ℝ)
    (hl : PF.WF eps l) (hd : PF.Dens l) :
    ∃ r, PF.splitByPoints eps l points = some r ∧ PF.WF eps r ∧ PF.Dens r ∧ PF.law r = PF.law l := by
  obtain ⟨r, h1, h2, h3, -, h4, -⟩ := C04_split he points hp l hl
  have hr : PF.Dens r := PF.dens_of he h2 (by simpa only [h3] using PF.val_nonneg hd)
    (by simpa only [h3] using PF.val_integrable hd) (fun x => by rw [h4]; exact PF.massAt_nonneg hd x)
  exact ⟨r, h1, h2, hr, PF.law_ext hd hr h3 h4⟩

/-- **C05**, probabilities: the restriction to `[a, b)` has exactly the measure restricted to `[a, b)`. -/
theorem C05_law {eps : ℝ} (he : 0 ≤ eps) (l : PF ℝ) (hl : PF.WF eps l) (hd : PF.Dens l) (a b : Ext ℝ) (hab : a < b) :
    ∃ r, PF.restrictToInterval eps l a b = some r ∧ PF.WF eps r ∧ PF.Dens r ∧
      PF.law r = (PF.law l).restrict {x | a ≤ .fin x ∧ .fin x < b} := by
  obtain ⟨r, h1, h2, h3, h4, -⟩ := C05_restrict he l hl a b hab
  have hD : MeasurableSet {x : ℝ | a ≤ .fin x ∧ .fin x < b} := measurableSet_ext a b
  have hv : (fun x => r.val x) = {x : ℝ | a ≤ .fin x ∧ .fin x < b}.indicator fun x => l.val x := by
    funext x; rw [h3]; simp [indicator]
  have hr : PF.Dens r := by
    refine PF.dens_of he h2 ?_ ?_ fun x => ?_
    · filter_upwards [PF.val_nonneg hd] with x hx
      rw [h3]; split_ifs
      · exact hx
      · exact le_rfl
    · rw [hv]; exact (PF.val_integrable hd).indicator hD
    · rw [h4]; split_ifs
      · exact PF.massAt_nonneg hd x
      · exact le_rfl
  refine ⟨r, h1, h2, hr, ?_⟩
  classical
  rw [PF.law_decomp hd (S := PF.atomSet l ∪ PF.atomSet r) fun a m h => Finset.mem_union_left _ (PF.mem_atomSet h),
    PF.law_decomp hr (S := PF.atomSet l ∪ PF.atomSet r) fun a m h => Finset.mem_union_right _ (PF.mem_atomSet h),
    Measure.restrict_add]
  congr 1
  · rw [restrict_withDensity hD, ← withDensity_indicator hD]
    congr 1
    funext x
    rw [h3]
    by_cases hx : a ≤ .fin x ∧ .fin x < b
    · rw [if_pos hx, indicator_of_mem (show x ∈ {x : ℝ | a ≤ .fin x ∧ .fin x < b} from hx)]
    · rw [if_neg hx, indicator_of_notMem (show x ∉ {x : ℝ | a ≤ .fin x ∧ .fin x < b} from hx), ENNReal.ofReal_zero]
  · rw [show ∀ μ : ℝ → Measure ℝ, ∀ S : Finset ℝ, (∑ x ∈ S, μ x).restrict {x : ℝ | a ≤ .fin x ∧ .fin x < b} =
        ∑ x ∈ S, (μ x).restrict {x : ℝ | a ≤ .fin x ∧ .fin x < b} from fun μ S => by
      simpa only [Measure.restrictₗ_apply] using map_sum (Measure.restrictₗ {x : ℝ | a ≤ .fin x ∧ .fin x < b}) μ S]
    refine Finset.sum_congr rfl fun x _ => ?_
    rw [Measure.restrict_smul, restrict_dirac' hD, h4]
    by_cases hx : a ≤ .fin x ∧ .fin x < b
    · rw [if_pos hx, if_pos (show x ∈ {x : ℝ | a ≤ .fin x ∧ .fin x < b} from hx)]
    · rw [if_neg hx, if_neg (show x ∉ {x : ℝ | a ≤ .fin x ∧ .fin x < b} from hx)]; simp

/-- **C06**, probabilities: the sum of two functions has the sum of the measures. -/
theorem C06_law_add {eps : ℝ} (he : 0 ≤ eps) (f g : PF ℝ) (hf : PF.WF eps f) (hg : PF.WF eps g)
    (hfg : PF.AtomsApart eps f g) (df : PF.Dens f) (dg : PF.Dens g) :
    ∃ r, PF.operation eps (fun x y => x + y) f g = some r ∧ PF.WF eps r ∧ PF.Dens r ∧ PF.law r = PF.law f + PF.law g := by
  obtain ⟨r, h1, h2, h3, h4⟩ := C06_add he f g hf hg hfg
  have hr : PF.Dens r := PF.dens_of he h2 (by
      filter_upwards [PF.val_nonneg df, PF.val_nonneg dg] with x hx hy
      rw [h3]; exact add_nonneg hx hy)
    (by simp only [h3]; exact (PF.val_integrable df).add (PF.val_integrable dg))
    (fun x => by rw [h4]; exact add_nonneg (PF.massAt_nonneg df x) (PF.massAt_nonneg dg x))
  refine ⟨r, h1, h2, hr, ?_⟩
  have hd : PF.Dens (f ++ g) := by
    intro s hs
    rcases List.mem_append.1 hs with hs | hs
    · exact df s hs
    · exact dg s hs
  rw [← PF.law_append]
  exact PF.law_ext hd hr (fun x => by rw [h3]; simp [PF.val]) (fun x => by rw [h4]; simp [PF.massAt])

/-! ### C58 -/

/-- no nonzero constant piece lies entirely outside `(a, b)` -/
def PF.ConstMeets (l : PF ℝ) (a : WithBot ℝ) (b : WithTop ℝ) : Prop :=
  ∀ sa sb c, Seg.const sa sb c ∈ l → clipLo sa a ≤ clipHi sb b ∨ c = 0

/-- **C58.** `integrate(a, b)` is the mass of the open interval `(a, b)`.  The full property has no hypothesis
`PF.ConstMeets`; it is false without it (`C58_violated_const`). -/
theorem C58_integrate_partial {q : Quad} {p : QPar} (h : ExactQ q p) {l : PF ℝ}
    (hd : PF.Dens l) {a : WithBot ℝ} {b : WithTop ℝ} (hab : endsLe a b) (hne : ¬ ∃ x : ℝ, a = x ∧ b = x)
    (hc : l.ConstMeets a b) : l.integrate q p a b = (PF.law l).real (ivl a b) := by
  rw [PF.integrate, foldl_add_sum, zero_add, PF.law_real_eq_sum hd]
  congr 1
  refine List.map_congr_left fun s hs => ?_
  have hds := hd s hs
  cases s with
  | fin pole sa sb f =>
    rw [fin_integrate h (val_integrable hds) hab, Seg.law_real rfl hds (ivl_measurable a b)]
  | const sa sb c =>
    rw [const_integrate q p hab (hc sa sb c hs), Seg.law_real rfl hds (ivl_measurable a b)]
  | minf sb f => rw [minf_integrate h, Seg.law_real rfl hds (ivl_measurable a b)]
  | pinf sa f => rw [pinf_integrate_ivl h, Seg.law_real rfl hds (ivl_measurable a b)]
  | dirac x m =>
    rw [dirac_integrate, Seg.law_real_dirac hds (ivl_measurable a b)]
    have : {y : ℝ | a = (y : WithBot ℝ) ∧ b = (y : WithTop ℝ)} = ∅ := by
      rw [eq_empty_iff_forall_notMem]
      rintro y hy
      exact hne ⟨y, hy⟩
    rw [this, union_empty]

/-- **C58**, a single point: `integrate(x, x)` is the mass of the atom at `x`. -/
theorem C58_integrate_point_partial {q : Quad} {p : QPar} (h : ExactQ q p) {l : PF ℝ}
    (hd : PF.Dens l) {x : ℝ} (hc : l.ConstMeets x x) :
    l.integrate q p x x = (PF.law l).real {x} := by
  rw [law_singleton hd, PF.integrate, foldl_add_sum, zero_add, PF.massAt]
  congr 1
  refine List.map_congr_left fun s hs => ?_
  have hds := hd s hs
  have hxx : endsLe (x : WithBot ℝ) (x : WithTop ℝ) := le_refl x
  cases s with
  | fin pole sa sb f => rw [fin_integrate h (val_integrable hds) hxx]; simp [Seg.massAt]
  | const sa sb c => rw [const_integrate q p hxx (hc sa sb c hs)]; simp [Seg.massAt]
  | minf sb f => rw [minf_integrate h]; simp [Seg.massAt]
  | pinf sa f => rw [pinf_integrate_ivl h]; simp [Seg.massAt]
  | dirac y m =>
    rw [dirac_integrate]
    simp [Seg.massAt, indicator, eq_comm]

/-- **C58**, total mass: without limits the integral is the total mass. -/
theorem C58_total {q : Quad} {p : QPar} (h : ExactQ q p) {eps : ℝ} {l : PF ℝ} (hw : PF.WF eps l) (hd : PF.Dens l) :
    l.integrate q p ⊥ ⊤ = (PF.law l).real univ := by
  rw [C58_integrate_partial h hd (a := ⊥) (b := ⊤) (show endsLe none none from trivial) (by rintro ⟨x, hx, -⟩; exact absurd hx (by simp)) ?_, ivl_bot_top]
  intro sa sb c hs
  exact .inl (le_of_lt (hw.seg _ hs))

/-- **C58** fails for constant pieces outside the interval: for `U(0, 1)` the code gives `P(5 < X < 6) = -4`. -/
theorem C58_violated_const (q : Quad) (p : QPar) :
    let l : PF ℝ := [.const 0 1 1]
    PF.WF 0 l ∧ PF.Dens l ∧ l.integrate q p (5 : ℝ) (6 : ℝ) = -4 ∧ (PF.law l).real (ivl (5 : ℝ) (6 : ℝ)) = 0 := by
  intro l
  have hd : PF.Dens l := by
    intro s hs
    rw [List.mem_singleton.1 hs]
    exact const_dens 0 1 zero_le_one
  refine ⟨⟨by simp [l, Seg.WF], by simp [l]⟩, hd, ?_, ?_⟩
  · show 0 + 1 * (clipHi 1 ((6 : ℝ) : WithTop ℝ) - clipLo 0 ((5 : ℝ) : WithBot ℝ)) = (-4 : ℝ)
    rw [clipHi_coe, clipLo_coe]; norm_num
  · rw [PF.law_real_eq_sum hd]
    simp only [l, List.map_cons, List.map_nil, List.sum_cons, List.sum_nil, add_zero]
    rw [Seg.law_real rfl (const_dens 0 1 zero_le_one) (ivl_measurable _ _), ivl_coe]
    refine setIntegral_eq_zero_of_forall_eq_zero fun t ht => ?_
    rw [const_val, if_neg]
    rintro ⟨-, h⟩
    linarith [ht.1]

/-! ### non-vacuity -/

example : PF.integrate exactQuad ⟨0, 10, 6, 8⟩ [.const 0 1 (1 / 2), .dirac 1 (1 / 2)] (1 / 2 : ℝ) (2 : ℝ) = 3 / 4 := by
  show 0 + 1 / 2 * (clipHi 1 ((2 : ℝ) : WithTop ℝ) - clipLo 0 ((1 / 2 : ℝ) : WithBot ℝ)) + (if _ then 1 / 2 else 0) = (3 / 4 : ℝ)
  rw [clipHi_coe, clipLo_coe, if_pos]
  · norm_num
  · exact .inl ⟨WithBot.coe_lt_coe.2 (by norm_num), WithTop.coe_lt_coe.2 (by norm_num)⟩

/-- the hypotheses of `C58_integrate_partial` and `C04_law` hold for this function -/
example : PF.WF 0 [Seg.const (0 : ℝ) 1 (1 / 2), .dirac 1 (1 / 2)] ∧ PF.Dens [Seg.const 0 1 (1 / 2), .dirac 1 (1 / 2)] ∧
    PF.ConstMeets [Seg.const 0 1 (1 / 2), .dirac 1 (1 / 2)] (1 / 2 : ℝ) (2 : ℝ) := by
  refine ⟨wf_pair (by norm_num [Seg.WF]) trivial ⟨ext_le.2 le_rfl, by simp⟩,
    dens_pair (const_dens 0 1 (by norm_num)) (by norm_num [Seg.Dens]), ?_⟩
  intro sa sb c hc
  simp only [List.mem_cons, Seg.const.injEq, List.not_mem_nil, or_false, reduceCtorEq] at hc
  obtain ⟨rfl, rfl, rfl⟩ := hc
  left
  rw [clipHi_coe, clipLo_coe]; norm_num

end Pacal
