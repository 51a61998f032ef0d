import Verif.Copula.LemCond

/-!
Helper lemmas about `conditionCDF`.
-/

open MeasureTheory ProbabilityTheory Set Filter Topology

namespace Pacal.Copula

open Pacal.Depend

variable {g : Gen} {Ω : Type*} [MeasurableSpace Ω] {P : Measure Ω} [IsProbabilityMeasure P] {Z : ℕ → Ω → ℝ} {ms : List MargR}
  {C : List ℝ → ℝ}

theorem Joint.unit (hJ : Joint ms C P Z) {m : MargR} (hm : m ∈ ms) (x : ℝ) : 0 ≤ m.cdf x ∧ m.cdf x ≤ 1 := by
  obtain ⟨k, hk, rfl⟩ := List.mem_iff_getElem.1 hm
  rw [(hJ.marg k _ (List.getElem?_eq_getElem hk)).2]
  exact ⟨cdf_nonneg _ _, cdf_le_one _ _⟩

theorem margCdf_eq (ms : List MargR) (X : List ℝ) : margCdf (ms.map MargR.toMarg) X = List.zipWith (fun m x => m.cdf x) ms X := by
  rw [margCdf, List.zipWith_map_left]

private theorem fin_le {x y : ℝ} : Ext.fin x ≤ Ext.fin y ↔ x ≤ y := by simp [Ext.fin]

/-- the mask of `ccond` lets numbers between 0 and 1 pass if one of the ranges contains the unit interval -/
theorem mask_wide {X : List ℝ} (hl : X.length = ms.length) (hu : ∀ m ∈ ms, ∀ x, 0 ≤ m.cdf x ∧ m.cdf x ≤ 1)
    (hw : ∃ m ∈ ms, m.lo ≤ Ext.fin 0 ∧ Ext.fin 1 ≤ m.hi) :
    NDim.scalarMask (dims ms) (List.zipWith (fun m x => m.cdf x) ms X) = true := by
  obtain ⟨m, hm, h0, h1⟩ := hw
  obtain ⟨k, hk, rfl⟩ := List.mem_iff_getElem.1 hm
  have hmem : true ∈ List.zipWith NDim.Dim.inside (dims ms) (List.zipWith (fun m x => m.cdf x) ms X) := by
    refine List.mem_iff_getElem.2 ⟨k, by simp [dims, hl, hk], ?_⟩
    have hu' := hu _ hm (X[k]'(hl ▸ hk))
    simp only [List.getElem_zipWith, dims, List.getElem_map, NDim.Dim.inside, Bool.and_eq_true, decide_eq_true_eq]
    exact ⟨h0.trans (fin_le.2 hu'.1), (fin_le.2 hu'.2).trans h1⟩
  rw [NDim.scalarMask_eq (List.ne_nil_of_mem hmem), List.any_eq_true]
  exact ⟨true, hmem, rfl⟩

omit [IsProbabilityMeasure P] in
theorem others_measurable {i : ℕ} {ys : List ℝ} (hl : ys.length + 1 = ms.length) (hJ : Joint ms C P Z) :
    MeasurableSet (others Z i ys) := by
  have e : others Z i ys = ⋂ k : Fin ys.length, {ω | (if (k : ℕ) < i then Z k ω else Z (k + 1) ω) ≤ ys[k]} := by
    ext ω
    simp only [others, mem_iInter]
    constructor
    · intro h k
      exact h k _ (by simp)
    · intro h k x hx
      obtain ⟨hk, rfl⟩ := List.getElem?_eq_some_iff.1 hx
      exact h ⟨k, hk⟩
  rw [e]
  refine MeasurableSet.iInter fun k => ?_
  have hk := k.2
  by_cases h : (k : ℕ) < i
  · simp only [if_pos h]
    exact measurableSet_le (hJ.meas _ (by omega)) measurable_const
  · simp only [if_neg h]
    exact measurableSet_le (hJ.meas _ (by omega)) measurable_const

omit [MeasurableSpace Ω] in
theorem event_insert {i : ℕ} {ys : List ℝ} (hi : i ≤ ys.length) (x : ℝ) :
    {ω | ∀ k z, (ys.insertIdx i x)[k]? = some z → Z k ω ≤ z} = {ω | Z i ω ≤ x} ∩ others Z i ys := by
  ext ω
  constructor
  · intro h
    refine ⟨h i x (by rw [List.getElem?_insertIdx_self]; simp [hi]), fun k z hz => ?_⟩
    split_ifs with hk
    · exact h k z (by rw [List.getElem?_insertIdx_of_lt hk]; exact hz)
    · refine h (k + 1) z ?_
      rw [List.getElem?_insertIdx_of_gt (by omega)]
      exact hz
  · rintro ⟨h1, h2⟩ k z hz
    rcases lt_trichotomy k i with hk | rfl | hk
    · rw [List.getElem?_insertIdx_of_lt hk] at hz
      have := h2 k z hz
      rwa [if_pos hk] at this
    · rw [List.getElem?_insertIdx_self] at hz
      simp only [hi, if_true, Option.some.injEq] at hz
      subst hz
      exact h1
    · rw [List.getElem?_insertIdx_of_gt hk] at hz
      have := h2 (k - 1) z hz
      rwa [if_neg (by omega), Nat.sub_add_cancel (by omega)] at this

theorem left_mask {i : ℕ} {ys : List ℝ}
    (hin : ∀ (k : ℕ) (m : MargR) (y : ℝ), (ms.eraseIdx i)[k]? = some m → ys[k]? = some y → m.lo ≤ Ext.fin y ∧ Ext.fin y ≤ m.hi) :
    NDim.scalarMask (dims (ms.eraseIdx i)) ys = true := by
  refine NDim.scalarMask_true ?_
  rintro ⟨k, d, x, hd, hx, hn⟩
  rw [dims, List.getElem?_map, Option.map_eq_some_iff] at hd
  obtain ⟨m, hm, rfl⟩ := hd
  exact hn (hin k m x hm hx)

/-- the value of `conditionCDF` with one condition -/
theorem conditionCDF_eq {i : ℕ} {m : MargR} (hi : ms[i]? = some m) {ys : List ℝ} (hl : ys.length + 1 = ms.length)
    (hr : ∀ m ∈ ms, m.lo < m.hi)
    (hin : ∀ (k : ℕ) (m : MargR) (y : ℝ), (ms.eraseIdx i)[k]? = some m → ys[k]? = some y → m.lo ≤ Ext.fin y ∧ Ext.fin y ≤ m.hi) (x : ℝ) :
    conditionCDF g ms [i] [x] ys = .ok (ccond g ms [i] (List.zipWith (fun m x => m.cdf x) ms (ys.insertIdx i x))) := by
  obtain ⟨hi', -⟩ := List.getElem?_eq_some_iff.1 hi
  unfold conditionCDF
  dsimp only
  rw [if_neg, eliminate_one, if_pos (left_mask hin), together_one i x _ 0 ys (Nat.zero_le _) (by omega) hl]
  · simp only [Bind.bind, Except.bind, margCdf_eq]
    rfl
  · rintro ⟨-, m', hm', hn⟩
    rw [eliminate_one] at hm'
    exact hn (hr m' (List.mem_of_mem_eraseIdx hm'))

theorem ccond_eq {i : ℕ} {m : MargR} (hi : ms[i]? = some m) {ys : List ℝ} (hl : ys.length + 1 = ms.length)
    (hu : ∀ m ∈ ms, ∀ x, 0 ≤ m.cdf x ∧ m.cdf x ≤ 1) (hw : ∃ m ∈ ms, m.lo ≤ Ext.fin 0 ∧ Ext.fin 1 ≤ m.hi) (x : ℝ) :
    ccond g ms [i] (List.zipWith (fun m x => m.cdf x) ms (ys.insertIdx i x)) =
      pderiv (symC g) i ((List.zipWith (fun m x => m.cdf x) (ms.eraseIdx i) ys).insertIdx i (m.cdf x)) := by
  obtain ⟨hi', -⟩ := List.getElem?_eq_some_iff.1 hi
  have hlen : (ys.insertIdx i x).length = ms.length := by
    rw [List.length_insertIdx_of_le_length (by omega), hl]
  rw [ccond, if_pos (mask_wide hlen hu hw), ccondFun_one g hi', zipWith_insert _ i ms ys x m hi hl]

/-- the conditional distribution function of two variables is measurable in the condition -/
theorem cond_version (hg : g.Regular) {m₀ m₁ : MargR} (hu : ∀ m ∈ [m₀, m₁], ∀ x, 0 ≤ m.cdf x ∧ m.cdf x ≤ 1)
    (hc : Measurable m₀.cdf) (hr : ∀ m ∈ [m₀, m₁], m.lo < m.hi) (hw : ∃ m ∈ [m₀, m₁], m.lo ≤ Ext.fin 0 ∧ Ext.fin 1 ≤ m.hi) {y : ℝ}
    (hy : m₁.lo ≤ Ext.fin y ∧ Ext.fin y ≤ m₁.hi) (hp : 0 < m₁.cdf y) {h : ℝ → ℝ}
    (hh : ∀ x, conditionCDF g [m₀, m₁] [0] [x] [y] = .ok (h x)) :
    ∃ k : ℝ → ℝ, Measurable k ∧ ∀ x, 0 < m₀.cdf x → m₀.cdf x < 1 → h x = k x := by
  refine ⟨_, (cond_meas hg (g.fi (m₁.cdf y))).comp hc, fun x h0 h1 => ?_⟩
  have hin : ∀ (k : ℕ) (m : MargR) (z : ℝ), ([m₀, m₁].eraseIdx 0)[k]? = some m → [y][k]? = some z →
      m.lo ≤ Ext.fin z ∧ Ext.fin z ≤ m.hi := by
    intro k m z hm hz
    have hm' := List.mem_of_getElem? hm
    have hz' := List.mem_of_getElem? hz
    simp only [List.eraseIdx_cons_zero, List.mem_singleton] at hm' hz'
    subst hm' hz'
    exact hy
  have e := hh x
  rw [conditionCDF_eq (i := 0) rfl rfl hr hin, ccond_eq (i := 0) rfl rfl hu hw] at e
  have e2 := Except.ok.inj e
  rw [← e2, pderiv_insert hg (Nat.zero_le _) ?_ h0 h1]
  · simp only [Function.comp, indicator_of_mem (mem_Ioo.2 ⟨h0, h1⟩)]
    simp
  · intro v hv
    simp only [List.eraseIdx_cons_zero, List.zipWith_cons_cons, List.zipWith_nil_left, List.mem_singleton] at hv
    subst hv
    exact ⟨hp, (hu m₁ (by simp) y).2⟩

end Pacal.Copula
