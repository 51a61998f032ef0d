import Verif.Copula.SpecCond
import Verif.Depend.LemArchLaw
import Verif.NDim.TotalLemmas

/-!
Helper lemmas: conditional distribution functions of Archimedean copulas.
-/

open MeasureTheory ProbabilityTheory Set Filter Topology

namespace Pacal.Copula

open Pacal.Depend

variable {g : Gen} {Ω : Type*} [MeasurableSpace Ω] {P : Measure Ω} [IsProbabilityMeasure P]

/-! ### lists -/

theorem together_none (i : ℕ) : ∀ (n j : ℕ) (Y : List ℝ), i < j → Y.length = n → together [i] n j [] Y = .ok Y
  | 0, j, Y, _, h => by
    rw [List.length_eq_zero_iff.1 h]
    rfl
  | n + 1, j, [], _, h => by simp at h
  | n + 1, j, y :: Y, hj, h => by
    have hn : ¬j ∈ [i] := by simp; omega
    rw [together, if_neg hn]
    rw [together_none i n (j + 1) Y (by omega) (by simpa using h)]
    rfl

theorem together_one (i : ℕ) (x : ℝ) : ∀ (n j : ℕ) (Y : List ℝ), j ≤ i → i < j + n → Y.length + 1 = n →
    together [i] n j [x] Y = .ok (Y.insertIdx (i - j) x)
  | 0, j, Y, h1, h2, _ => by omega
  | n + 1, j, Y, h1, h2, h => by
    rcases h1.eq_or_lt with rfl | h1
    · rw [together.eq_def]
      dsimp only
      rw [if_pos (by simp)]
      rw [together_none j n (j + 1) Y (by omega) (by omega)]
      simp
      rfl
    · have hn : ¬j ∈ [i] := by simp; omega
      rw [together.eq_def]
      dsimp only
      rw [if_neg hn]
      obtain _ | ⟨y, Y⟩ := Y
      · simp at h; omega
      · dsimp only
        rw [together_one i x n (j + 1) Y (by omega) (by omega) (by simpa using h)]
        obtain ⟨k, hk⟩ : ∃ k, i - j = k + 1 := ⟨i - j - 1, by omega⟩
        rw [hk, show i - (j + 1) = k by omega]
        rfl

theorem eliminate_one {α : Type} (i : ℕ) (ms : List α) : eliminate ms [i] = ms.eraseIdx i := by
  have key : ∀ (ms : List α) (j : ℕ), j ≤ i →
      ((ms.zipIdx j).filter fun p => decide (p.2 ∉ [i])).map Prod.fst = ms.eraseIdx (i - j) := by
    have rest : ∀ (ms : List α) (j : ℕ), i < j → ((ms.zipIdx j).filter fun p => decide (p.2 ∉ [i])).map Prod.fst = ms := by
      intro ms
      induction ms with
      | nil => intro j _; rfl
      | cons m ms ih =>
        intro j hj
        have hn : ¬j = i := by omega
        rw [List.zipIdx_cons, List.filter_cons_of_pos (by simpa using hn), List.map_cons, ih _ (by omega)]
    intro ms
    induction ms with
    | nil => intro j _; simp
    | cons m ms ih =>
      intro j hj
      rcases hj.eq_or_lt with rfl | hj
      · rw [List.zipIdx_cons, List.filter_cons_of_neg (by simp), rest _ _ (by omega)]
        simp
      · have hn : ¬j = i := by omega
        obtain ⟨k, hk⟩ : ∃ k, i - j = k + 1 := ⟨i - j - 1, by omega⟩
        rw [List.zipIdx_cons, List.filter_cons_of_pos (by simpa using hn), List.map_cons, ih _ (by omega), hk,
          show i - (j + 1) = k by omega]
        rfl
  exact key ms 0 (Nat.zero_le _)

theorem zipWith_insert {α β γ : Type} (f : α → β → γ) : ∀ (i : ℕ) (ms : List α) (ys : List β) (x : β) (m : α), ms[i]? = some m →
    ys.length + 1 = ms.length → List.zipWith f ms (ys.insertIdx i x) = (List.zipWith f (ms.eraseIdx i) ys).insertIdx i (f m x)
  | 0, [], _, _, _, h, _ => by simp at h
  | 0, m' :: ms, ys, x, m, h, _ => by
    simp only [List.getElem?_cons_zero, Option.some.injEq] at h
    subst h
    simp
  | i + 1, [], _, _, _, h, _ => by simp at h
  | i + 1, m' :: ms, [], x, m, h, hl => by
    have : ms = [] := by simpa using hl
    subst this
    simp at h
  | i + 1, m' :: ms, y :: ys, x, m, h, hl => by
    have hz := zipWith_insert f i ms ys x m (by simpa using h) (by simpa using hl)
    simp [hz]

theorem ccondFun_one (g : Gen) {d i : ℕ} (hi : i < d) : ccondFun g d [i] = pderiv (symC g) i := by
  have key : ∀ (l : List ℕ) (F : List ℝ → ℝ), l.Nodup →
      l.foldl (fun DC k => if k ∈ [i] then pderiv DC k else DC) F = if i ∈ l then pderiv F i else F := by
    intro l
    induction l with
    | nil => intro F _; simp
    | cons k l ih =>
      intro F hn
      rw [List.foldl_cons, ih _ (List.nodup_cons.1 hn).2]
      by_cases hk : k = i
      · subst hk
        rw [if_neg (List.nodup_cons.1 hn).1, if_pos (by simp), if_pos (by simp)]
      · rw [if_neg (show ¬k ∈ [i] by simpa using hk)]
        by_cases hil : i ∈ l
        · rw [if_pos hil, if_pos (by simp [hil])]
        · rw [if_neg hil, if_neg (by simp [hil, Ne.symm hk])]
  rw [ccondFun, key _ _ List.nodup_range, if_pos (List.mem_range.2 hi)]

theorem symC_insert (g : Gen) {l : List ℝ} {i : ℕ} (hi : i ≤ l.length) (t : ℝ) :
    symC g (l.insertIdx i t) = g.inv (g.fi t + (l.map g.fi).sum) := by
  rw [symC, foldl_sum, zero_add, ((List.perm_insertIdx t l hi).map g.fi).sum_eq, List.map_cons, List.sum_cons]

theorem set_insert : ∀ (i : ℕ) (l : List ℝ) (u t : ℝ), i ≤ l.length → (l.insertIdx i u).set i t = l.insertIdx i t
  | 0, l, u, t, _ => by simp
  | i + 1, [], u, t, h => by simp at h
  | i + 1, a :: l, u, t, h => by
    rw [List.insertIdx_succ_cons, List.set_cons_succ, set_insert i l u t (by simpa using h), List.insertIdx_succ_cons]

theorem pderiv_insert (hg : g.Regular) {l : List ℝ} {i : ℕ} (hi : i ≤ l.length) (hl : ∀ v ∈ l, 0 < v ∧ v ≤ 1) {u : ℝ} (h0 : 0 < u)
    (h1 : u < 1) : pderiv (symC g) i (l.insertIdx i u) = deriv g.inv (g.fi u + (l.map g.fi).sum) * deriv g.fi u := by
  have hs : 0 ≤ (l.map g.fi).sum := hg.gen.sum_nonneg hl
  have e : (fun t => symC g ((l.insertIdx i u).set i t)) = fun t => g.inv (g.fi t + (l.map g.fi).sum) := by
    ext t
    rw [← symC_insert g hi]
    congr 1
    exact set_insert i l u t hi
  have hget : (l.insertIdx i u).getD i 0 = u := by
    rw [List.getD_eq_getElem?_getD, List.getElem?_insertIdx_self]
    simp [hi]
  rw [pderiv, e, hget]
  have hp := hg.gen.pos h0 h1
  exact ((inv_deriv hg (by linarith)).comp u (((hg.diff_fi u h0 h1).hasDerivAt.add_const _))).deriv

/-! ### integrals -/

/-- integrating the conditional distribution function gives the copula -/
theorem lint_cond (hg : g.Regular) {s : ℝ} (hs : 0 ≤ s) {u : ℝ} (h0 : 0 < u) (h1 : u ≤ 1) :
    ∫⁻ x in Ioo 0 u, ENNReal.ofReal (deriv g.inv (g.fi x + s) * deriv g.fi x) = ENNReal.ofReal (g.inv (g.fi u + s)) := by
  have hu := hg.gen.nonneg h0 h1
  rw [← lint_first hg (add_nonneg hu hs), ← lint_shift (fun w => ENNReal.ofReal (-(deriv g.inv w))), fi_subst hg h0 h1]
  refine setLIntegral_congr_fun measurableSet_Ioo fun x hx => ?_
  have hx1 := hx.2.trans_le h1
  have hp := hg.gen.pos hx.1 hx1
  rw [← ENNReal.ofReal_mul (abs_nonneg _), abs_of_neg (fi_deriv_neg hg hx.1 hx1)]
  congr 1
  ring

theorem cond_range (hg : g.Regular) {s : ℝ} (hs : 0 ≤ s) {u : ℝ} (h0 : 0 < u) (h1 : u < 1) :
    0 ≤ deriv g.inv (g.fi u + s) * deriv g.fi u ∧ deriv g.inv (g.fi u + s) * deriv g.fi u ≤ 1 := by
  have hp := hg.gen.pos h0 h1
  refine ⟨(mul_pos_of_neg_of_neg (inv_deriv_neg hg (by linarith)) (fi_deriv_neg hg h0 h1)).le, ?_⟩
  have hm : MonotoneOn (deriv g.inv) (Ioi 0) :=
    ((hg.gen.inv_convex.subset Ioi_subset_Ici_self (convex_Ioi 0)).monotoneOn_deriv
      fun x hx => (inv_deriv hg (mem_Ioi.1 hx)).differentiableAt)
  have hle := hm (mem_Ioi.2 hp) (mem_Ioi.2 (by linarith : 0 < g.fi u + s)) (by linarith)
  rw [fi_deriv hg h0 h1, ← div_eq_mul_inv, div_le_one_of_neg (inv_deriv_neg hg hp)]
  exact hle

theorem cond_meas (hg : g.Regular) (s : ℝ) :
    Measurable fun u => deriv g.inv ((Ioo (0 : ℝ) 1).indicator g.fi u + s) * deriv g.fi u :=
  ((measurable_deriv _).comp ((fi_meas hg).add_const s)).mul (measurable_deriv _)

/-- the ranks are almost surely between 0 and 1 -/
theorem rank_open {X : Ω → ℝ} (hX : Measurable X) (hc : Continuous (cdf (P.map X))) : ∀ᵐ ω ∂P, rank P X ω ∈ Ioo (0 : ℝ) 1 := by
  have a0 : ∀ᵐ ω ∂P, rank P X ω ≠ 0 := measure_eq_zero_iff_ae_notMem.1 (rank_atom hX hc 0)
  have a1 : ∀ᵐ ω ∂P, rank P X ω ≠ 1 := measure_eq_zero_iff_ae_notMem.1 (rank_atom hX hc 1)
  filter_upwards [a0, a1] with ω h0 h1
  exact ⟨(rank_mem hX ω).1.lt_of_ne (Ne.symm h0), (rank_mem hX ω).2.lt_of_ne h1⟩

/-- a second variable below a function of the first -/
theorem sample_law {U T : Ω → ℝ} (hU : Measurable U) (hT : Measurable T) (hi : IndepFun U T P)
    (hl : P.map T = volume.restrict (Icc (0 : ℝ) 1)) {k : ℝ → ℝ} (hk : Measurable k) (hr : ∀ᵐ u ∂P.map U, 0 ≤ k u ∧ k u ≤ 1) (x : ℝ) :
    P.real {ω | U ω ≤ x ∧ T ω ≤ k (U ω)} = ∫ u in Iic x, k u ∂P.map U := by
  have hμ : IsProbabilityMeasure (P.map U) := Measure.isProbabilityMeasure_map hU.aemeasurable
  have hν : IsProbabilityMeasure (P.map T) := Measure.isProbabilityMeasure_map hT.aemeasurable
  have hS : MeasurableSet {z : ℝ × ℝ | z.1 ≤ x ∧ z.2 ≤ k z.1} :=
    (measurableSet_le measurable_fst measurable_const).inter (measurableSet_le measurable_snd (hk.comp measurable_fst))
  have e1 : P {ω | U ω ≤ x ∧ T ω ≤ k (U ω)} = ((P.map U).prod (P.map T)) {z : ℝ × ℝ | z.1 ≤ x ∧ z.2 ≤ k z.1} := by
    rw [← (indepFun_iff_map_prod_eq_prod_map_map hU.aemeasurable hT.aemeasurable).1 hi, Measure.map_apply (hU.prodMk hT) hS]
    rfl
  have e2 : ((P.map U).prod (P.map T)) {z : ℝ × ℝ | z.1 ≤ x ∧ z.2 ≤ k z.1} = ∫⁻ u in Iic x, ENNReal.ofReal (k u) ∂P.map U := by
    rw [Measure.prod_apply hS, ← lintegral_indicator measurableSet_Iic]
    refine lintegral_congr_ae ?_
    filter_upwards [hr] with u hu
    by_cases hux : u ≤ x
    · rw [indicator_of_mem (mem_Iic.2 hux), hl]
      have : (Prod.mk u ⁻¹' {z : ℝ × ℝ | z.1 ≤ x ∧ z.2 ≤ k z.1}) = Iic (k u) := by
        ext t
        exact ⟨fun h => h.2, fun h => ⟨hux, h⟩⟩
      rw [this, Measure.restrict_apply measurableSet_Iic]
      have : (Iic (k u) ∩ Icc 0 1 : Set ℝ) = Icc 0 (k u) := by
        ext t
        exact ⟨fun h => ⟨h.2.1, h.1⟩, fun h => ⟨h.2, h.1, h.2.trans hu.2⟩⟩
      rw [this, Real.volume_Icc, sub_zero]
    · rw [indicator_of_notMem (by simpa using hux)]
      have : (Prod.mk u ⁻¹' {z : ℝ × ℝ | z.1 ≤ x ∧ z.2 ≤ k z.1}) = ∅ := by
        ext t
        exact ⟨fun h => hux h.1, fun h => h.elim⟩
      rw [this, measure_empty]
  rw [Measure.real, e1, e2, ← integral_eq_lintegral_of_nonneg_ae (ae_restrict_of_ae (hr.mono fun u hu => hu.1))
    hk.aestronglyMeasurable]

/-- the conditional probability from the values on half-lines -/
theorem condProb_of {X : Ω → ℝ} (hX : Measurable X) (hc : Continuous (cdf (P.map X))) (hg : g.Regular) {s : ℝ} (hs : 0 ≤ s) {E : Set Ω}
    (hE : MeasurableSet E) (h : ℝ → ℝ)
    (hh : ∀ x, 0 < cdf (P.map X) x → cdf (P.map X) x < 1 →
      h x = deriv g.inv (g.fi (cdf (P.map X) x) + s) * deriv g.fi (cdf (P.map X) x))
    (hj : ∀ x, 0 < cdf (P.map X) x → P.real ({ω | X ω ≤ x} ∩ E) = g.inv (g.fi (cdf (P.map X) x) + s)) :
    IsCondProb P X E h := by
  have ho := rank_open (P := P) hX hc
  have hr : ∀ᵐ ω ∂P, 0 ≤ h (X ω) ∧ h (X ω) ≤ 1 := by
    filter_upwards [ho] with ω hω
    rw [hh _ hω.1 hω.2]
    exact cond_range hg hs hω.1 hω.2
  refine ⟨hr, ?_⟩
  obtain ⟨k, hk⟩ : ∃ k : ℝ → ℝ, k = fun u => deriv g.inv ((Ioo (0 : ℝ) 1).indicator g.fi u + s) * deriv g.fi u := ⟨_, rfl⟩
  have km : Measurable k := by rw [hk]; exact cond_meas hg s
  have kv : ∀ u ∈ Ioo (0 : ℝ) 1, k u = deriv g.inv (g.fi u + s) * deriv g.fi u := by
    intro u hu; rw [hk]; beta_reduce; rw [indicator_of_mem hu]
  have kae : (fun ω => h (X ω)) =ᵐ[P] fun ω => k (cdf (P.map X) (X ω)) := by
    filter_upwards [ho] with ω hω
    rw [hh _ hω.1 hω.2]
    exact (kv _ hω).symm
  have cm : Measurable (cdf (P.map X)) := (monotone_cdf _).measurable
  have dm : Measurable fun x => ENNReal.ofReal (k (cdf (P.map X) x)) := (km.comp cm).ennreal_ofReal
  have key : (P.restrict E).map X = (P.map X).withDensity fun x => ENNReal.ofReal (k (cdf (P.map X) x)) := by
    have : IsFiniteMeasure ((P.restrict E).map X) := Measure.isFiniteMeasure_map _ _
    refine Measure.ext_of_Iic _ _ fun x => ?_
    rw [Measure.map_apply hX measurableSet_Iic, Measure.restrict_apply (hX measurableSet_Iic), withDensity_apply _ measurableSet_Iic,
      setLIntegral_map measurableSet_Iic dm hX]
    have e0 : (X ⁻¹' Iic x : Set Ω) =ᵐ[P] rank P X ⁻¹' Iic (cdf (P.map X) x) := by
      have a : ∀ᵐ ω ∂P, rank P X ω ≠ cdf (P.map X) x := measure_eq_zero_iff_ae_notMem.1 (rank_atom hX hc _)
      filter_upwards [a] with ω hω
      refine propext ⟨fun h => monotone_cdf _ h, fun h => ?_⟩
      by_contra hn
      exact hω (le_antisymm h (monotone_cdf _ (not_le.1 hn).le))
    have e1 : ∫⁻ ω in X ⁻¹' Iic x, ENNReal.ofReal (k (cdf (P.map X) (X ω))) ∂P =
        ∫⁻ u in Iic (cdf (P.map X) x), ENNReal.ofReal (k u) ∂(volume.restrict (Icc (0 : ℝ) 1)) := by
      rw [← rank_law hX hc, setLIntegral_map measurableSet_Iic km.ennreal_ofReal (rank_measurable hX), Measure.restrict_congr_set e0]
      rfl
    have e2 : Measure.restrict (volume.restrict (Icc (0 : ℝ) 1)) (Iic (cdf (P.map X) x)) =
        volume.restrict (Ioo 0 (cdf (P.map X) x)) := by
      rw [Measure.restrict_restrict measurableSet_Iic]
      refine Measure.restrict_congr_set ?_
      have : (Iic (cdf (P.map X) x) ∩ Icc 0 1 : Set ℝ) = Icc 0 (cdf (P.map X) x) := by
        ext u
        exact ⟨fun h => ⟨h.2.1, h.1⟩, fun h => ⟨h.2, h.1, h.2.trans (cdf_le_one _ _)⟩⟩
      rw [this]
      exact Ioo_ae_eq_Icc.symm
    rw [e1, e2]
    rcases (cdf_nonneg (P.map X) x).eq_or_lt with h0 | h0
    · rw [← h0, Ioo_self, Measure.restrict_empty, lintegral_zero_measure]
      have : P.real {ω | X ω ≤ x} = 0 := by rw [← cdf_map_apply hX, h0]
      refine measure_mono_null inter_subset_left ?_
      have hz := (measureReal_eq_zero_iff (μ := P) (measure_ne_top _ _)).1 this
      exact hz
    · have e3 : ∫⁻ u in Ioo 0 (cdf (P.map X) x), ENNReal.ofReal (k u) =
          ∫⁻ u in Ioo 0 (cdf (P.map X) x), ENNReal.ofReal (deriv g.inv (g.fi u + s) * deriv g.fi u) :=
        setLIntegral_congr_fun measurableSet_Ioo fun u hu => by
          beta_reduce
          rw [kv u ⟨hu.1, hu.2.trans_le (cdf_le_one _ _)⟩]
      rw [e3, lint_cond hg hs h0 (cdf_le_one _ _), ← hj x h0, ofReal_measureReal]
      rfl
  intro B hB
  have e := congrArg (fun μ => (μ B).toReal) key
  rw [Measure.map_apply hX hB, Measure.restrict_apply (hX hB), withDensity_apply _ hB, setLIntegral_map hB dm hX] at e
  rw [Measure.real, e, setIntegral_congr_ae (g := fun ω => k (cdf (P.map X) (X ω))) (hX hB) (kae.mono fun ω hω _ => hω),
    integral_eq_lintegral_of_nonneg_ae]
  · refine ae_restrict_of_ae ?_
    filter_upwards [kae, hr] with ω h1 h2
    rw [← h1]
    exact h2.1
  · exact ((km.comp cm).comp hX).aestronglyMeasurable

end Pacal.Copula
