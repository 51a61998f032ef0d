import Verif.Summary.LemMode

/-!
The mode and the largest and smallest value (C73).

The full property: `mode()` is a place where the density (or, for a discrete distribution, the probability) is largest, and
`maximum`, `minimum`, `max_abs` return the extreme values.  It holds when the numerical minimiser succeeds on every piece
(`Searched`); for a minimiser that finds the minimum of a function with one valley this is the case for pieces with one hump
whose tails have their top within 1 of the finite end (`OneHump`).  Missing are tails with a top further out
(`C73_violated_tail`), distributions with both atoms and a density (`C73_violated_mixed`) and negative constants for `max_abs`
(`C73_violated_max_abs`).
-/

namespace Pacal.Summary
open Filter Topology Set MeasureTheory

/-- **C73**: when the search succeeds on every piece, `maximum()` returns the largest value and a place where it is attained -/
theorem C73_maximum_partial {P : Search} {l : PF ℝ} (hne : l ≠ []) (h : ∀ s ∈ l, Searched P s) :
    ∃ x v, maximum P l = some (some (x, v)) ∧ IsLargest l x v := by
  obtain ⟨⟨x, v⟩, h1, h2, -, h3⟩ := maxLoop_ok l none h (.inl hne)
  exact ⟨x, v, h1, h2.resolve_left (by simp), h3⟩

/-- **C73**: the same for `minimum()` -/
theorem C73_minimum_partial {P : Search} {l : PF ℝ} (hne : l ≠ []) (h : ∀ s ∈ l, SearchedMin P s) :
    ∃ x v, minimum P l = some (some (x, v)) ∧ IsSmallest l x v := by
  obtain ⟨⟨x, v⟩, h1, h2, -, h3⟩ := minLoop_ok l none h (.inl hne)
  exact ⟨x, v, h1, h2.resolve_left (by simp), h3⟩

/-- **C73**: `mode()` returns a place where the largest value is attained -/
theorem C73_mode_partial {P : Search} {l : PF ℝ} (hne : l ≠ []) (h : ∀ s ∈ l, Searched P s) :
    ∃ x v, mode P l = some (some x) ∧ IsLargest l x v := by
  obtain ⟨x, v, h1, h2⟩ := C73_maximum_partial hne h
  exact ⟨x, v, by rw [mode, h1]; rfl, h2⟩

/-- **C73** for pieces with one hump and a minimiser that finds the minimum of a function with one valley -/
theorem C73_unimodal_partial {M : Minimizer} (hM : GoodSearch M) (ym : ℝ) {l : PF ℝ} (hne : l ≠ []) (h : ∀ s ∈ l, OneHump s) :
    ∃ N, ∀ fuel, N ≤ fuel → ∃ x v, mode ⟨M, ym, fuel⟩ l = some (some x) ∧ IsLargest l x v := by
  obtain ⟨N, hN⟩ := searched_all hM ym l h
  exact ⟨N, fun fuel hf => C73_mode_partial hne (hN fuel hf)⟩

/-- **C73** for a discrete distribution: the mode is a value of largest probability, whatever the minimiser does -/
theorem C73_discrete (P : Search) {l : PF ℝ} (hne : l ≠ []) (hd : ∀ s ∈ l, s.isDirac = true) :
    ∃ a m, Seg.dirac a m ∈ l ∧ mode P l = some (some (a : EReal)) ∧ ∀ a' m', Seg.dirac a' m' ∈ l → m' ≤ m := by
  have key : ∀ s ∈ l, ∃ a m, s = Seg.dirac a m := by
    intro s hs
    have := hd s hs
    cases s <;> simp_all [Seg.isDirac]
  obtain ⟨x, v, h1, ⟨s, hs, ha⟩, h3⟩ := C73_mode_partial (P := P) hne fun s hs => by
    obtain ⟨a, m, rfl⟩ := key s hs
    exact trivial
  obtain ⟨a, m, rfl⟩ := key s hs
  obtain ⟨rfl, rfl⟩ := ha
  exact ⟨a, v, hs, h1, fun a' m' h => h3 _ h _ _ ⟨rfl, rfl⟩⟩

/-- **C73** for a density that is positive somewhere and vanishes at infinity: the mode is a real number, and the density is
nowhere larger than the value at the mode -/
theorem C73_density_partial {P : Search} {eps : ℝ} {l : PF ℝ} (hw : PF.WF eps l) (h : ∀ s ∈ l, Searched P s)
    (hc : ∀ s ∈ l, s.isDirac = false) (hl : ∀ b f, Seg.minf b f ∈ l → Tendsto f atBot (𝓝 0))
    (hr : ∀ a f, Seg.pinf a f ∈ l → Tendsto f atTop (𝓝 0)) {z : ℝ} (hz : 0 < l.val z) :
    ∃ (x v : ℝ), mode P l = some (some (x : EReal)) ∧ 0 < v ∧ (∃ s ∈ l, s.lo ≤ .fin x ∧ .fin x ≤ s.hi ∧ s.fn x = v) ∧
      ∀ y, l.val y ≤ v := by
  have hne : l ≠ [] := by rintro rfl; simp [PF.val] at hz
  obtain ⟨x, v, h1, ⟨s, hs, ha⟩, h3⟩ := C73_mode_partial hne h
  have hval : ∀ y, l.val y ≠ 0 → ∃ t ∈ l, l.val y = t.val y := by
    intro y hy
    by_contra hcon
    push Not at hcon
    have : ∃ t ∈ l, t.val y ≠ 0 := by
      by_contra h0
      push Not at h0
      exact hy (by rw [PF.val]; exact List.sum_eq_zero (by simpa using fun t ht => h0 t ht))
    obtain ⟨t, ht, h0⟩ := this
    have e := piece_val hw ht (hc t ht) y
    rw [e] at h0
    exact hcon t ht (by rw [e, indicator_of_mem (mem_of_indicator_ne_zero h0)])
  have hle : ∀ y, l.val y ≠ 0 → l.val y ≤ v := by
    intro y hy
    obtain ⟨t, ht, e⟩ := hval y hy
    rw [e] at hy ⊢
    exact h3 t ht _ _ (attains_of_val hy)
  have hv : 0 < v := hz.trans_le (hle z hz.ne')
  have hall : ∀ y, l.val y ≤ v := fun y => by
    by_cases hy : l.val y = 0
    · rw [hy]; exact hv.le
    · exact hle y hy
  have hs' := hc s hs
  cases s with
  | fin p a b f =>
    obtain ⟨y, rfl, k1, k2, rfl⟩ := ha
    exact ⟨y, _, h1, hv, ⟨_, hs, extFin_le.2 k1, extFin_le.2 k2, rfl⟩, hall⟩
  | const a b c =>
    obtain ⟨y, rfl, k1, k2, rfl⟩ := ha
    exact ⟨y, _, h1, hv, ⟨_, hs, extFin_le.2 k1, extFin_le.2 k2, rfl⟩, hall⟩
  | minf b f =>
    rcases ha with ⟨y, rfl, k2, rfl⟩ | ⟨-, k⟩
    · exact ⟨y, _, h1, hv, ⟨_, hs, bot_le, extFin_le.2 k2, rfl⟩, hall⟩
    · exact absurd (tendsto_nhds_unique k (hl b f hs)) hv.ne'
  | pinf a f =>
    rcases ha with ⟨y, rfl, k1, rfl⟩ | ⟨-, k⟩
    · exact ⟨y, _, h1, hv, ⟨_, hs, extFin_le.2 k1, by simp [Seg.hi, Ext.pinf, Ext.fin], rfl⟩, hall⟩
    · exact absurd (tendsto_nhds_unique k (hr a f hs)) hv.ne'
  | dirac a m => simp [Seg.isDirac] at hs'

/-- **C73**: `max_abs()` returns the largest absolute value and a place where it is attained, if the function has a value that
is not negative, or two different values -/
theorem C73_max_abs_partial {P : Search} {l : PF ℝ} (hne : l ≠ []) (h : ∀ s ∈ l, Searched P s) (h' : ∀ s ∈ l, SearchedMin P s)
    (hd : (∃ s ∈ l, ∃ x v, Attains s x v ∧ 0 ≤ v) ∨ ∃ s ∈ l, ∃ t ∈ l, ∃ x y v w, Attains s x v ∧ Attains t y w ∧ v < w) :
    ∃ x v, maxAbs P l = some (some (x, v)) ∧ (∃ s ∈ l, ∃ w, Attains s x w ∧ v = |w|) ∧
      ∀ s ∈ l, ∀ y w, Attains s y w → |w| ≤ v := by
  obtain ⟨x₁, v₁, e1, ⟨s₁, m1, a1⟩, b1⟩ := C73_maximum_partial hne h
  obtain ⟨x₂, v₂, e2, ⟨s₂, m2, a2⟩, b2⟩ := C73_minimum_partial hne h'
  have hb : ∀ s ∈ l, ∀ y w, Attains s y w → |w| ≤ max |v₁| |v₂| := by
    intro s hs y w hw
    have k1 := b1 s hs y w hw
    have k2 := b2 s hs y w hw
    rw [abs_le]
    have i1 := le_abs_self v₁
    have i2 := neg_abs_le v₂
    have i3 := le_max_left |v₁| |v₂|
    have i4 := le_max_right |v₁| |v₂|
    constructor <;> linarith
  rw [maxAbs, e1, e2]
  simp only [Option.bind_some, Option.map_some]
  by_cases hlt : |v₁| < |v₂|
  · rw [if_pos hlt]
    exact ⟨_, _, rfl, ⟨s₂, m2, v₂, a2, rfl⟩, fun s hs y w hw => (hb s hs y w hw).trans_eq (max_eq_right hlt.le)⟩
  · rw [if_neg hlt]
    have hle := not_lt.1 hlt
    have hpos : 0 ≤ v₁ := by
      rcases hd with ⟨s, hs, x, v, ha, hv⟩ | ⟨s, hs, t, ht, x, y, v, w, ha, hb', hvw⟩
      · exact hv.trans (b1 s hs x v ha)
      · by_contra hneg
        push Not at hneg
        have k1 := b2 s hs x v ha
        have k2 := b1 t ht y w hb'
        rw [abs_of_neg hneg, abs_of_neg (by linarith)] at hle
        linarith
    exact ⟨_, _, rfl, ⟨s₁, m1, v₁, a1, (abs_of_nonneg hpos).symm⟩,
      fun s hs y w hw => (hb s hs y w hw).trans_eq ((max_eq_left hle).trans (abs_of_nonneg hpos))⟩

/-- **C73**: `mode()` of the piecewise density (which starts its search at the value 0) is the mode, if there is a positive value -/
theorem C73_pd_mode_partial {P : Search} {l : PF ℝ} (h : ∀ s ∈ l, Searched P s) (hp : ∃ s ∈ l, ∃ x v, Attains s x v ∧ 0 < v) :
    ∃ x v, pdMode P l = some (some x) ∧ IsLargest l x v := by
  have key : ∀ (l : PF ℝ) (st : Option EReal × ℝ), (∀ s ∈ l, Searched P s) →
      ∃ r, modeLoop P l st = some r ∧ (r = st ∨ ∃ x, r.1 = some x ∧ ∃ s ∈ l, Attains s x r.2) ∧ st.2 ≤ r.2 ∧
        ∀ s ∈ l, ∀ y w, Attains s y w → w ≤ r.2 := by
    intro l
    induction l with
    | nil => intro st _; exact ⟨st, rfl, .inl rfl, le_rfl, by simp⟩
    | cons s l ih =>
      intro st hs
      obtain ⟨r, hr, hr1, hr2⟩ := segMaximum_ok (hs s (by simp))
      by_cases hlt : st.2 < r.2
      · obtain ⟨q, q1, q2, q3, q4⟩ := ih (some r.1, r.2) fun t ht => hs t (List.mem_cons_of_mem _ ht)
        refine ⟨q, by rw [modeLoop, hr, Option.bind_some, if_pos hlt, q1], .inr ?_, hlt.le.trans q3, ?_⟩
        · rcases q2 with rfl | ⟨x, hx, t, ht, ha⟩
          · exact ⟨r.1, rfl, s, by simp, hr1⟩
          · exact ⟨x, hx, t, List.mem_cons_of_mem _ ht, ha⟩
        · intro t ht y w hw
          rcases List.mem_cons.1 ht with rfl | ht
          · exact (hr2 y w hw).trans q3
          · exact q4 t ht y w hw
      · obtain ⟨q, q1, q2, q3, q4⟩ := ih st fun t ht => hs t (List.mem_cons_of_mem _ ht)
        refine ⟨q, by rw [modeLoop, hr, Option.bind_some, if_neg hlt, q1], ?_, q3, ?_⟩
        · rcases q2 with h | ⟨x, hx, t, ht, ha⟩
          · exact .inl h
          · exact .inr ⟨x, hx, t, List.mem_cons_of_mem _ ht, ha⟩
        · intro t ht y w hw
          rcases List.mem_cons.1 ht with rfl | ht
          · exact (hr2 y w hw).trans ((not_lt.1 hlt).trans q3)
          · exact q4 t ht y w hw
  obtain ⟨r, h1, h2, -, h4⟩ := key l (none, 0) h
  obtain ⟨s, hs, x, v, ha, hv⟩ := hp
  have hpos : 0 < r.2 := hv.trans_le (h4 s hs x v ha)
  rcases h2 with rfl | ⟨x', hx', hat⟩
  · exact absurd hpos (lt_irrefl _)
  · exact ⟨x', r.2, by rw [pdMode, h1, Option.map_some, hx'], hat, h4⟩

/-! ### where the code deviates -/

/-- **C73 violated by a tail whose density starts late**: for the uniform density on [3/2, 5/2] given on the piece `[0, ∞)`, the
search for the end of the tail stops at 1 because the density is 0 there; `mode()` is 0, where the density is 0, although the
density is 1 at 2 -/
theorem C73_violated_tail {M : Minimizer} (hM : GoodSearch M) (ym : ℝ) (fuel : ℕ) :
    let l : PF ℝ := [.pinf 0 late]
    PF.WF 0 l ∧ PF.Dens l ∧ (PF.law l).real univ = 1 ∧ mode ⟨M, ym, fuel + 1⟩ l = some (some ((0 : ℝ) : EReal)) ∧ l.val 0 = 0 ∧ l.val 2 = 1 := by
  intro l
  have hval : ∀ x, (Seg.pinf 0 late).val x = late x := by
    intro x
    rw [pinf_val]
    split_ifs with h
    · rfl
    · exact (late_zero (by linarith)).symm
  have hint : Integrable late volume := (integrable_indicator_iff measurableSet_Icc).2 (by simp)
  have hd : PF.Dens l := by
    intro s hs
    rw [List.mem_singleton.1 hs]
    refine ⟨ae_of_all _ fun x => ?_, ?_⟩
    · rw [hval]; exact indicator_nonneg (fun _ _ => zero_le_one) x
    · simp_rw [hval]; exact hint
  refine ⟨⟨by simp [l, Seg.WF], by simp [l]⟩, hd, ?_, ?_, ?_, ?_⟩
  · have : PF.law l = (volume : Measure ℝ).withDensity fun x => ENNReal.ofReal (late x) := by
      simp [l, PF.law, Seg.law, hval]
    rw [this, Measure.real, withDensity_apply _ MeasurableSet.univ, Measure.restrict_univ,
      ← ofReal_integral_eq_lintegral_ofReal hint (ae_of_all _ fun x => indicator_nonneg (fun _ _ => zero_le_one) x),
      late, integral_indicator measurableSet_Icc]
    norm_num
  · have hf : findRightpoint ym (fuel + 1) late 0 = some 1 := by
      rw [findRightpoint, zero_add, rightLoop, if_pos]
      left
      rw [late_zero le_rfl, zero_mul]
    have hc : ∀ x ∈ Icc (0 : ℝ) 1, (Seg.pinf 0 late).call x = 0 := fun x hx => by rw [call_pinf hx.1, late_zero hx.2]
    have hx : M (fun x => -(Seg.pinf 0 late).call x) 0 1 ∈ Icc (0 : ℝ) 1 := (hM _ 0 1 zero_le_one (.inr fun y hy => by
      show -_ = -_
      rw [hc y hy, hc 0 (by simp)])).1
    have hlim : (Seg.pinf 0 late).valHi = 0 := by
      refine Tendsto.limUnder_eq (tendsto_const_nhds.congr' ?_)
      filter_upwards [eventually_gt_atTop (5 / 2)] with x hx
      rw [late, indicator_of_notMem]
      rintro ⟨-, h1⟩
      linarith
    have hlo : (Seg.pinf 0 late).valLo = 0 := late_zero zero_le_one
    simp only [mode, maximum, l, maxLoop, segMaximum, hf, Option.map_some, Option.bind_some, hlim, hlo, hc _ hx, keep]
    simp [better]
  · simp [l, PF.val, hval, late_zero]
  · simp only [l, PF.val, List.map_cons, List.map_nil, List.sum_cons, List.sum_nil, add_zero, hval]
    rw [late, indicator_of_mem (by norm_num)]

/-- **C73 violated for atoms together with a density**: with probability 9/10 the value is exactly 0, and the rest is uniform on
[1, 1.05]; the mode reported lies in [1, 1.05], because the density 2 is compared with the probability 9/10 -/
theorem C73_violated_mixed {M : Minimizer} (hM : GoodSearch M) (ym : ℝ) (fuel : ℕ) :
    let l : PF ℝ := [.dirac 0 (9 / 10), .const 1 (21 / 20) 2]
    PF.WF 0 l ∧ PF.Dens l ∧ l.massAt 0 = 9 / 10 ∧ ∃ x : ℝ, mode ⟨M, ym, fuel⟩ l = some (some (x : EReal)) ∧ 1 ≤ x ∧ l.massAt x = 0 := by
  intro l
  have hx : M (fun x => -(Seg.const 1 (21 / 20) 2).call x) 1 (21 / 20) ∈ Icc (1 : ℝ) (21 / 20) :=
    (hM _ 1 (21 / 20) (by norm_num) (.inr fun y hy => by
      show -_ = -_
      rw [call_const hy, call_const (by norm_num)])).1
  refine ⟨⟨by simp [l, Seg.WF]; norm_num, ?_⟩, ?_, by norm_num [l, PF.massAt, Seg.massAt], _, ?_, hx.1, ?_⟩
  · simp only [l, List.pairwise_cons, List.mem_singleton, forall_eq, List.not_mem_nil, false_imp_iff, implies_true,
      List.Pairwise.nil, and_true]
    exact ⟨extFin_le.2 zero_le_one, by simp⟩
  · intro s hs
    simp only [l, List.mem_cons, List.not_mem_nil, or_false] at hs
    rcases hs with rfl | rfl
    · norm_num [Seg.Dens]
    · exact const_dens _ _ (by norm_num)
  · simp only [mode, maximum, l, maxLoop, segMaximum, Option.bind_some, keep]
    norm_num [better]
  · have : M (fun x => -(Seg.const 1 (21 / 20) 2).call x) 1 (21 / 20) ≠ 0 := by linarith [hx.1]
    simp [l, PF.massAt, Seg.massAt, this.symm]

/-- **C73 violated for `max_abs`**: the largest absolute value of the constant function -1 is reported as -1 -/
theorem C73_violated_max_abs (P : Search) : ∃ x, maxAbs P [.const 0 1 (-1)] = some (some (x, -1)) := by
  refine ⟨((P.M (fun x => -(Seg.const 0 1 (-1)).call x) 0 1 : ℝ) : EReal), ?_⟩
  simp [maxAbs, maximum, minimum, maxLoop, minLoop, segMaximum, segMinimum, keep]

/-! ### non-vacuity -/

/-- a minimiser as assumed exists -/
example : GoodSearch bestM := bestM_good

/-- the two-sided exponential density (two tails, top at 0) next to a rising piece meets the hypotheses -/
example : ∀ s ∈ ([.minf 0 (fun x => Real.exp x), .fin .none 0 1 (fun x => 1 - x), .pinf 1 (fun x => Real.exp (-x))] : PF ℝ), OneHump s := by
  intro s hs
  simp only [List.mem_cons, List.not_mem_nil, or_false] at hs
  rcases hs with rfl | rfl | rfl
  · exact ⟨⟨0, by norm_num, Real.exp_strictMono.strictMonoOn _, by simp [StrictAntiOn]⟩, 0, Real.tendsto_exp_atBot⟩
  · exact ⟨zero_le_one, .inl ⟨0, by norm_num, le_rfl, by simp, fun x _ y _ h => by show 1 - y < 1 - x; linarith⟩⟩
  · exact ⟨⟨1, by norm_num, by simp, fun x _ y _ h => Real.exp_lt_exp.2 (by linarith)⟩, 0,
      Real.tendsto_exp_atBot.comp tendsto_neg_atTop_atBot⟩

/-- and the mode of the fair die loaded towards 6 is 6 -/
example (P : Search) : mode P [.dirac 1 (1 / 4), .dirac 6 (3 / 4)] = some (some ((6 : ℝ) : EReal)) := by
  simp only [mode, maximum, maxLoop, segMaximum, Option.bind_some, keep]
  norm_num [better]

end Pacal.Summary
