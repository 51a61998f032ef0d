import Verif.Copula.LemCondJoint

/-!
C81: the conditional distribution functions of Archimedean copulas.
-/

open MeasureTheory ProbabilityTheory Set

namespace Pacal.Copula

open Pacal.Depend

variable {g : Gen} {Ω : Type*} [MeasurableSpace Ω] {P : Measure Ω} [IsProbabilityMeasure P] {Z : ℕ → Ω → ℝ} {ms : List MargR}
  {C : List ℝ → ℝ}

private theorem cond_main (hg : g.Regular) (hJ : Joint ms g.val P Z) {i : ℕ} {m : MargR} (hi : ms[i]? = some m) {ys : List ℝ}
    (hl : ys.length + 1 = ms.length)
    (hpos : ∀ (k : ℕ) (m : MargR) (y : ℝ), (ms.eraseIdx i)[k]? = some m → ys[k]? = some y → 0 < m.cdf y)
    (hw : ∃ m ∈ ms, m.lo ≤ Ext.fin 0 ∧ Ext.fin 1 ≤ m.hi) {h : ℝ → ℝ}
    (hh : ∀ x, 0 < m.cdf x → m.cdf x < 1 →
      h x = ccond g ms [i] (List.zipWith (fun m x => m.cdf x) ms (ys.insertIdx i x))) :
    IsCondProb P (Z i) (others Z i ys) h := by
  obtain ⟨hi', -⟩ := List.getElem?_eq_some_iff.1 hi
  obtain ⟨hc, hm⟩ := hJ.marg i m hi
  have hm' : m.cdf = ⇑(cdf (P.map (Z i))) := funext hm
  obtain ⟨l, hL⟩ : ∃ l, l = List.zipWith (fun m x => m.cdf x) (ms.eraseIdx i) ys := ⟨_, rfl⟩
  have hu : ∀ v ∈ l, 0 < v ∧ v ≤ 1 := by
    intro v hv
    rw [hL] at hv
    obtain ⟨k, hk, rfl⟩ := List.mem_iff_getElem.1 hv
    rw [List.getElem_zipWith]
    rw [List.length_zipWith] at hk
    refine ⟨hpos k _ _ (List.getElem?_eq_getElem (by omega)) (List.getElem?_eq_getElem (by omega)), ?_⟩
    exact (hJ.unit (List.mem_of_mem_eraseIdx (List.getElem_mem _)) _).2
  have hll : i ≤ l.length := by
    rw [hL, List.length_zipWith, List.length_eraseIdx_of_lt hi']
    omega
  refine condProb_of (hJ.meas i hi') (hm' ▸ hc) hg (hg.gen.sum_nonneg hu) (others_measurable hl hJ) h (fun x h0 h1 => ?_) fun x h0 => ?_
  · rw [← hm'] at h0 h1 ⊢
    rw [hh x h0 h1, ccond_eq hi hl (fun m hm => hJ.unit hm) hw, ← hL, pderiv_insert hg hll hu h0 h1]
  · rw [← hm'] at h0 ⊢
    have hlen : (ys.insertIdx i x).length = ms.length := by
      rw [List.length_insertIdx_of_le_length (by omega), hl]
    rw [← event_insert (by omega), hJ.sklar _ hlen, margCdf_eq, zipWith_insert _ i ms ys x m hi hl, ← hL, hg.val_pos,
      ((List.perm_insertIdx (m.cdf x) l hll).map g.fi).sum_eq, List.map_cons, List.sum_cons]
    intro v hv
    rcases List.eq_or_mem_of_mem_insertIdx hv with rfl | hv
    · exact ⟨h0, (hJ.unit (List.mem_of_getElem? hi) x).2⟩
    · exact hu v hv

/-- **C81**: for the provided generators and any number of continuous variables with the copula `ccdf`, `conditionCDF([i], x)` at
`ys` is the conditional probability that the other variables are at most `ys`, given that variable number `i` is `x`.

Missing from the full statement: the range of one of the marginals must contain the unit interval, every `y` must be in the range
of its marginal and have a positive distribution function, and there is one condition only (see `C81_violated_range`,
`C81_violated_beyond` and `C81_violated_two`). -/
theorem C81_cdf_partial (hg : Provided g) (hC : ∀ U : List ℝ, U.length = ms.length → archCcdf g ms.length U = .ok (C U))
    (hJ : Joint ms C P Z) {i : ℕ} (hi : i < ms.length) {ys : List ℝ} (hl : ys.length + 1 = ms.length) (hr : ∀ m ∈ ms, m.lo < m.hi)
    (hin : ∀ (k : ℕ) (m : MargR) (y : ℝ), (ms.eraseIdx i)[k]? = some m → ys[k]? = some y →
      m.lo ≤ Ext.fin y ∧ Ext.fin y ≤ m.hi ∧ 0 < m.cdf y)
    (hw : ∃ m ∈ ms, m.lo ≤ Ext.fin 0 ∧ Ext.fin 1 ≤ m.hi) {h : ℝ → ℝ} (hh : ∀ x, conditionCDF g ms [i] [x] ys = .ok (h x)) :
    IsCondProb P (Z i) (others Z i ys) h := by
  have hJ' : Joint ms g.val P Z := ⟨hJ.meas, hJ.marg, fun X hX => by
    rw [hJ.sklar X hX]
    have hlen : (margCdf (ms.map MargR.toMarg) X).length = ms.length := by simp [margCdf, hX]
    have := hC _ hlen
    rw [archCcdf_ok hlen] at this
    exact (Except.ok.inj this).symm⟩
  have hi' := List.getElem?_eq_getElem hi
  refine cond_main hg.regular hJ' hi' hl (fun k m y h1 h2 => (hin k m y h1 h2).2.2) hw fun x _ _ => ?_
  have := hh x
  rw [conditionCDF_eq hi' hl hr (fun k m y h1 h2 => ⟨(hin k m y h1 h2).1, (hin k m y h1 h2).2.1⟩)] at this
  exact (Except.ok.inj this).symm

/-- **C81**: the same for `condfun([i])`, whose arguments are the values of all variables, in their order. -/
theorem C81_condfun_partial (hg : Provided g) (hC : ∀ U : List ℝ, U.length = ms.length → archCcdf g ms.length U = .ok (C U))
    (hJ : Joint ms C P Z) {i : ℕ} (hi : i < ms.length) {ys : List ℝ} (hl : ys.length + 1 = ms.length)
    (hin : ∀ (k : ℕ) (m : MargR) (y : ℝ), (ms.eraseIdx i)[k]? = some m → ys[k]? = some y →
      m.lo ≤ Ext.fin y ∧ Ext.fin y ≤ m.hi ∧ 0 < m.cdf y)
    (hw : ∃ m ∈ ms, m.lo ≤ Ext.fin 0 ∧ Ext.fin 1 ≤ m.hi)
    (hx : ∀ m, ms[i]? = some m → ∀ x, 0 < m.cdf x → m.cdf x < 1 → m.lo ≤ Ext.fin x ∧ Ext.fin x ≤ m.hi) :
    IsCondProb P (Z i) (others Z i ys) fun x => condfun g ms [i] (ys.insertIdx i x) := by
  have hJ' : Joint ms g.val P Z := ⟨hJ.meas, hJ.marg, fun X hX => by
    rw [hJ.sklar X hX]
    have hlen : (margCdf (ms.map MargR.toMarg) X).length = ms.length := by simp [margCdf, hX]
    have := hC _ hlen
    rw [archCcdf_ok hlen] at this
    exact (Except.ok.inj this).symm⟩
  have hi' := List.getElem?_eq_getElem hi
  refine cond_main hg.regular hJ' hi' hl (fun k m y h1 h2 => (hin k m y h1 h2).2.2) hw fun x h0 h1 => ?_
  rw [condfun, margCdf_eq, if_pos]
  refine NDim.scalarMask_true ?_
  rintro ⟨k, d, z, hd, hz, hn⟩
  rw [dims, List.getElem?_map, Option.map_eq_some_iff] at hd
  obtain ⟨m, hm, rfl⟩ := hd
  refine hn ?_
  rcases lt_trichotomy k i with hk | rfl | hk
  · rw [List.getElem?_insertIdx_of_lt hk] at hz
    have := hin k m z (by rw [List.getElem?_eraseIdx_of_lt hk]; exact hm) hz
    exact ⟨this.1, this.2.1⟩
  · rw [List.getElem?_insertIdx_self] at hz
    rw [if_pos (by omega), Option.some.injEq] at hz
    subst hz
    have e : m = ms[k] := Option.some.inj (hm.symm.trans hi')
    subst e
    exact hx _ hi' x h0 h1
  · rw [List.getElem?_insertIdx_of_gt hk] at hz
    have := hin (k - 1) m z (by rw [List.getElem?_eraseIdx_of_ge (by omega), Nat.sub_add_cancel (by omega)]; exact hm) hz
    exact ⟨this.1, this.2.1⟩

/-! ### the hypotheses are met -/

private theorem fin_le {x y : ℝ} : Ext.fin x ≤ Ext.fin y ↔ x ≤ y := by simp [Ext.fin]

private theorem fin_lt {x y : ℝ} : Ext.fin x < Ext.fin y ↔ x < y := by simp [Ext.fin]

private theorem unif_left {c : ℝ} {k : ℕ} {m : MargR} (h : ([unifR c, unifR c].eraseIdx 0)[k]? = some m) : m = unifR c := by
  have := List.mem_of_getElem? h
  simpa using this

private theorem others_two (y c : ℝ) : others (fun (k : ℕ) (z : ℝ × ℝ) => c + if k = 0 then z.1 else z.2) 0 [y] = {z | c + z.2 ≤ y} := by
  ext z
  constructor
  · intro h
    have := h 0 y rfl
    simpa using this
  · intro h k x hx
    have hx' := List.mem_of_getElem? hx
    simp only [List.mem_singleton] at hx'
    subst hx'
    simpa using h

/-- the conditional distribution function of a pair uniform on the unit interval with the copula of Clayton -/
example : ∃ (Q : Measure (ℝ × ℝ)) (_ : IsProbabilityMeasure Q) (h : ℝ → ℝ),
    (∀ x, conditionCDF (clayton 2) [unifR 0, unifR 0] [0] [x] [1 / 2] = .ok (h x)) ∧
    IsCondProb Q (fun z => 0 + z.1) {z | 0 + z.2 ≤ 1 / 2} h := by
  have hg : Provided (clayton 2) := Or.inl ⟨2, by norm_num, rfl⟩
  obtain ⟨Q, hQ, hJ⟩ := arch_joint hg.regular 0
  have hr : ∀ m ∈ [unifR 0, unifR 0], m.lo < m.hi := by
    intro m hm
    simp only [List.mem_cons, List.not_mem_nil, or_false, or_self] at hm
    subst hm
    exact fin_lt.2 (by norm_num)
  have hin : ∀ (k : ℕ) (m : MargR) (y : ℝ), ([unifR 0, unifR 0].eraseIdx 0)[k]? = some m → [(1 / 2 : ℝ)][k]? = some y →
      m.lo ≤ Ext.fin y ∧ Ext.fin y ≤ m.hi ∧ 0 < m.cdf y := by
    intro k m y hm hy
    have e := unif_left hm
    have hy' := List.mem_of_getElem? hy
    simp only [List.mem_singleton] at hy'
    subst e hy'
    refine ⟨fin_le.2 (by norm_num), fin_le.2 (by norm_num), ?_⟩
    change 0 < clip (1 / 2 - 0)
    norm_num [clip]
  have hh : ∀ x, conditionCDF (clayton 2) [unifR 0, unifR 0] [0] [x] [1 / 2] = .ok _ := fun x =>
    conditionCDF_eq rfl rfl hr (fun k m y h1 h2 => ⟨(hin k m y h1 h2).1, (hin k m y h1 h2).2.1⟩) x
  refine ⟨Q, hQ, _, hh, ?_⟩
  have := C81_cdf_partial hg (fun U hU => archCcdf_ok hU) hJ (i := 0) (by norm_num) rfl hr hin
    ⟨unifR 0, by simp, fin_le.2 le_rfl, fin_le.2 (by norm_num)⟩ hh
  rw [others_two] at this
  exact this

/-! ### violations -/

private theorem not_zero {c y : ℝ} (hg : g.Regular) (hy : c + 1 ≤ y) {Q : Measure (ℝ × ℝ)} [IsProbabilityMeasure Q]
    (hJ : Joint [unifR c, unifR c] g.val Q fun k z => c + if k = 0 then z.1 else z.2) :
    ¬IsCondProb Q (fun z => c + z.1) {z | c + z.2 ≤ y} fun _ => 0 := by
  intro h
  have h1 := h.2 univ MeasurableSet.univ
  have h2 := (hJ.marg 1 (unifR c) rfl).2 y
  simp only [one_ne_zero, if_false] at h2
  rw [cdf_map_apply (by fun_prop)] at h2
  have e : (unifR c).cdf y = 1 := by
    change clip (y - c) = 1
    rw [clip, min_eq_right (by linarith)]
    norm_num
  simp only [preimage_univ, univ_inter, integral_zero] at h1
  have h3 : Q.real {z : ℝ × ℝ | c + z.2 ≤ y} = 1 := h2.symm.trans e
  rw [h3] at h1
  exact one_ne_zero h1

/-- **C81** (violated): `ccond` compares the values of the distribution functions with the ranges of the marginals.  For two variables
uniform on [2, 3], `conditionCDF` is 0 everywhere, also where the conditional distribution function is 1. -/
theorem C81_violated_range : ∃ (Q : Measure (ℝ × ℝ)) (_ : IsProbabilityMeasure Q) (Z : ℕ → ℝ × ℝ → ℝ),
    Joint [unifR 2, unifR 2] (clayton 1).val Q Z ∧
    (∀ x y, conditionCDF (clayton 1) [unifR 2, unifR 2] [0] [x] [y] = .ok 0) ∧
    ¬IsCondProb Q (Z 0) (others Z 0 [3]) fun _ => 0 := by
  have hg : Provided (clayton 1) := Or.inl ⟨1, by norm_num, rfl⟩
  obtain ⟨Q, hQ, hJ⟩ := arch_joint hg.regular 2
  refine ⟨Q, hQ, _, hJ, fun x y => ?_, ?_⟩
  · have hl : (unifR 2).lo < (unifR 2).hi := fin_lt.2 (by norm_num)
    unfold conditionCDF
    dsimp only
    rw [eliminate_one, if_neg (by simp [hl])]
    split_ifs with hm
    · rw [together_one 0 x [unifR 2, unifR 2].length 0 [y] le_rfl (by norm_num) rfl]
      simp only [Bind.bind, Except.bind]
      congr 1
      rw [ccond, if_neg]
      rw [margCdf_eq, NDim.scalarMask_eq (by simp [dims])]
      have hn : ∀ u, NDim.Dim.inside (⟨(), (unifR 2).lo, (unifR 2).hi⟩ : NDim.Dim Unit ℝ) (clip u) = false := by
        intro u
        have : ¬((unifR 2).lo ≤ Ext.fin (clip u)) := by
          rw [not_le]
          exact fin_lt.2 (by linarith [(clip_mem u).2])
        simp [NDim.Dim.inside, this]
      have h1 := hn (x - 2)
      have h2 := hn (y - 2)
      change ¬[NDim.Dim.inside _ (clip (x - 2)), NDim.Dim.inside _ (clip (y - 2))].any id = true
      rw [h1, h2]
      simp
    · rfl
  · rw [others_two]
    exact not_zero hg.regular (by norm_num) hJ

/-- **C81** (violated): with one variable left, `conditionCDF` is 0 beyond the right end of its range, where the conditional
distribution function is 1: two variables uniform on [0, 1], at 2. -/
theorem C81_violated_beyond : ∃ (Q : Measure (ℝ × ℝ)) (_ : IsProbabilityMeasure Q) (Z : ℕ → ℝ × ℝ → ℝ),
    Joint [unifR 0, unifR 0] (clayton 1).val Q Z ∧
    (∀ x, conditionCDF (clayton 1) [unifR 0, unifR 0] [0] [x] [2] = .ok 0) ∧
    ¬IsCondProb Q (Z 0) (others Z 0 [2]) fun _ => 0 := by
  have hg : Provided (clayton 1) := Or.inl ⟨1, by norm_num, rfl⟩
  obtain ⟨Q, hQ, hJ⟩ := arch_joint hg.regular 0
  refine ⟨Q, hQ, _, hJ, fun x => ?_, ?_⟩
  · have hl : (unifR 0).lo < (unifR 0).hi := fin_lt.2 (by norm_num)
    unfold conditionCDF
    dsimp only
    rw [eliminate_one, if_neg (by simp [hl]), if_neg]
    rw [NDim.scalarMask_eq (by simp [dims])]
    have : ¬(Ext.fin 2 ≤ (unifR 0).hi) := by
      rw [not_le]
      exact fin_lt.2 (by norm_num)
    simp [dims, NDim.Dim.inside, this]
  · rw [others_two]
    exact not_zero hg.regular (by norm_num) hJ

private theorem clayton_one (r s : ℝ) : symC (clayton 1) [r, s, 1] = (r⁻¹ + s⁻¹ - 1)⁻¹ := by
  simp only [symC, clayton, List.foldl_cons, List.foldl_nil, Real.rpow_neg_one]
  rw [show (-1 : ℝ) / 1 = -1 by norm_num, Real.rpow_neg_one]
  congr 1
  norm_num
  ring

/-- **C81** (violated): with two conditions, `conditionCDF` is the mixed derivative of the copula, not divided by the density of the two
conditions.  For three variables uniform on [0, 1] with the copula of Clayton (`theta = 1`), the function is 32/27 at the right end
of the range of the third variable, when the other two are 1/2. -/
theorem C81_violated_two :
    conditionCDF (clayton 1) [unifR 0, unifR 0, unifR 0] [0, 1] [1 / 2, 1 / 2] [1] = .ok (32 / 27) := by
  have hl : (unifR 0).lo < (unifR 0).hi := fin_lt.2 (by norm_num)
  have he : eliminate [unifR 0, unifR 0, unifR 0] [0, 1] = [unifR 0] := by
    simp [eliminate]
  have ht : together [0, 1] 3 0 [1 / 2, 1 / 2] [1] = .ok [1 / 2, 1 / 2, 1] := by
    simp [together, Except.map]
  have c1 : clip (1 / 2 - 0) = 1 / 2 := by norm_num [clip]
  have c2 : clip (1 - 0) = 1 := by norm_num [clip]
  unfold conditionCDF
  dsimp only
  rw [he, if_neg (by simp [hl]), if_pos, show [unifR 0, unifR 0, unifR 0].length = 3 from rfl, ht]
  · simp only [Bind.bind, Except.bind]
    congr 1
    have hu : ∀ m ∈ [unifR 0, unifR 0, unifR 0], ∀ x, 0 ≤ m.cdf x ∧ m.cdf x ≤ 1 := by
      intro m hm x
      simp only [List.mem_cons, List.not_mem_nil, or_false, or_self] at hm
      subst hm
      exact clip_mem _
    rw [margCdf_eq, ccond, if_pos (mask_wide rfl hu ⟨unifR 0, by simp, fin_le.2 le_rfl, fin_le.2 (by norm_num)⟩)]
    change ccondFun (clayton 1) 3 [0, 1] [clip (1 / 2 - 0), clip (1 / 2 - 0), clip (1 - 0)] = _
    rw [c1, c2]
    have e1 : ccondFun (clayton 1) 3 [0, 1] = pderiv (pderiv (symC (clayton 1)) 0) 1 := by
      simp [ccondFun, List.range_succ]
    rw [e1]
    have d1 : ∀ s : ℝ, 0 < s → pderiv (symC (clayton 1)) 0 [1 / 2, s, 1] = 4 * ((1 + s⁻¹) ^ 2)⁻¹ := by
      intro s hs
      have h0 : (0 : ℝ) < s⁻¹ := inv_pos.2 hs
      change deriv (fun t => symC (clayton 1) [t, s, 1]) (1 / 2) = _
      simp only [clayton_one]
      have := (((hasDerivAt_inv (x := (1 / 2 : ℝ)) (by norm_num)).add_const s⁻¹).sub_const 1).inv
        (by norm_num; linarith)
      rw [show (fun t : ℝ => (t⁻¹ + s⁻¹ - 1)⁻¹) = (fun t : ℝ => t⁻¹ + s⁻¹ - 1)⁻¹ from rfl, this.deriv]
      rw [show ((1 / 2 : ℝ)⁻¹ + s⁻¹ - 1) = 1 + s⁻¹ by norm_num; ring]
      rw [div_eq_mul_inv]
      norm_num
    change deriv (fun t => pderiv (symC (clayton 1)) 0 [1 / 2, t, 1]) (1 / 2) = _
    have e2 : (fun t => pderiv (symC (clayton 1)) 0 [1 / 2, t, 1]) =ᶠ[nhds (1 / 2)] fun t => 4 * ((1 + t⁻¹) ^ 2)⁻¹ := by
      filter_upwards [Ioi_mem_nhds (show (0 : ℝ) < 1 / 2 by norm_num)] with t ht using d1 t ht
    rw [e2.deriv_eq]
    have h1 := (((hasDerivAt_inv (x := (1 / 2 : ℝ)) (by norm_num)).const_add 1).pow 2).inv (by norm_num)
    have h2 := h1.const_mul 4
    refine h2.deriv.trans ?_
    norm_num
  · refine NDim.scalarMask_true ?_
    rintro ⟨k, d, x, hd, hx, hn⟩
    have hd' := List.mem_of_getElem? hd
    have hx' := List.mem_of_getElem? hx
    simp only [dims, List.map_cons, List.map_nil, List.mem_singleton] at hd' hx'
    subst hd' hx'
    exact hn ⟨fin_le.2 (by norm_num), fin_le.2 (by norm_num)⟩

end Pacal.Copula
