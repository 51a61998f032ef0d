import Verif.NDim.SpecElim
import Verif.NDim.Lemmas
import Mathlib.MeasureTheory.Integral.Prod

/-! Lemmas on the elimination of variables from a joint density. -/

open MeasureTheory Set

namespace Pacal.NDim

variable {V : Type} {Ω : Type*} [MeasurableSpace Ω]

theorem ofFn_insertNth {α : Type} {n : ℕ} (i : Fin (n + 1)) (x : α) (y : Fin n → α) :
    List.ofFn (i.insertNth x y : Fin (n + 1) → α) = (List.ofFn y).take i ++ x :: (List.ofFn y).drop i := by
  have hi := i.is_lt
  refine List.ext_getElem (by simp; omega) fun j h1 h2 => ?_
  rw [List.getElem_ofFn]
  rw [List.length_ofFn] at h1
  rcases lt_trichotomy j i.val with h | h | h
  · rw [List.getElem_append_left (by simp; omega)]
    have e : (⟨j, by omega⟩ : Fin (n + 1)) = i.succAbove ⟨j, by omega⟩ := by
      rw [Fin.succAbove_of_castSucc_lt _ _ h]; rfl
    rw [e, Fin.insertNth_apply_succAbove]
    simp
  · subst h
    rw [List.getElem_append_right (by simp)]
    have : (⟨i.val, by omega⟩ : Fin (n + 1)) = i := rfl
    rw [this, Fin.insertNth_apply_same]
    simp [Nat.min_eq_left (Nat.lt_succ_iff.1 hi)]
  · rw [List.getElem_append_right (by simp; omega)]
    obtain ⟨k, rfl⟩ : ∃ k, j = k + 1 := ⟨j - 1, by omega⟩
    have e : (⟨k + 1, by omega⟩ : Fin (n + 1)) = i.succAbove ⟨k, by omega⟩ := by
      rw [Fin.succAbove_of_le_castSucc _ _ (by rw [Fin.le_def]; simp; omega)]; rfl
    rw [e, Fin.insertNth_apply_succAbove]
    have hl : (List.take (↑i) (List.ofFn y)).length = i := by simp; omega
    simp only [hl]
    rw [List.getElem_cons]
    rw [dif_neg (by omega)]
    rw [List.getElem_drop, List.getElem_ofFn]
    congr 1
    ext
    simp
    omega

theorem call_out {f : Fac V ℝ} {X : List ℝ} (hX : X ≠ []) (h : arrayMask f.dims X = false) : f.call X = 0 := by
  rw [Fac.call, if_neg hX, h]
  simp [Fac.post_zero]

/-- the mask with one more coordinate -/
theorem mask_insert {dims : List (Dim V ℝ)} {i : ℕ} {d : Dim V ℝ} (hd : dims[i]? = some d) {Y : List ℝ}
    (hY : Y.length + 1 = dims.length) (x : ℝ) :
    arrayMask dims (Y.take i ++ x :: Y.drop i) = (arrayMask (dims.eraseIdx i) Y && d.inside x) := by
  obtain ⟨hi, hd'⟩ := List.getElem?_eq_some_iff.1 hd
  have e1 : dims = dims.take i ++ d :: dims.drop (i + 1) := by
    rw [← hd', List.getElem_cons_drop, List.take_append_drop]
  have hl : (dims.take i).length = (Y.take i).length := by simp; omega
  rw [arrayMask_eq, arrayMask_eq, List.eraseIdx_eq_take_drop_succ]
  conv_lhs => rw [e1]
  conv_rhs => rw [← List.take_append_drop i Y]
  rw [List.zipWith_append hl, List.zipWith_append hl, List.zipWith_cons_cons]
  simp only [List.all_append, List.all_cons, id]
  ac_rfl

/-- the value after integrating out one coordinate -/
theorem elimDim_call {f : Fac V ℝ} {i : ℕ} {d : Dim V ℝ} (hd : f.dims[i]? = some d) {Y : List ℝ}
    (hY : Y.length + 1 = f.dims.length) (h0 : Y ≠ []) :
    (elimDim rangeIntegral f i d).call Y = ∫ x, f.call (Y.take i ++ x :: Y.drop i) := by
  have hz : ∀ x, (arrayMask (f.dims.eraseIdx i) Y && d.inside x) = false → f.call (Y.take i ++ x :: Y.drop i) = 0 := by
    intro x hx
    exact call_out (by simp) (by rw [mask_insert hd hY, hx])
  rw [Fac.call, if_neg h0]
  simp only [elimDim, Fac.post, Bool.false_eq_true, if_false]
  by_cases h : arrayMask (f.dims.eraseIdx i) Y = true
  · refine (if_pos h).trans ?_
    refine setIntegral_eq_integral_of_forall_compl_eq_zero fun x hx => hz x ?_
    rw [Bool.and_eq_false_iff]
    right
    rw [Bool.eq_false_iff]
    exact fun hc => hx (inside_iff.1 hc)
  · refine (if_neg h).trans ?_
    rw [Bool.not_eq_true] at h
    rw [show (fun x => f.call (Y.take i ++ x :: Y.drop i)) = fun _ => 0 from funext fun x => hz x (by rw [h]; rfl)]
    simp

/-- integrating out one of several variables of a joint density -/
theorem IsJoint.elimDim {f : Fac V ℝ} {P : Measure Ω} [IsProbabilityMeasure P] {X : V → Ω → ℝ} (hX : ∀ v, Measurable (X v))
    (h : IsJoint f P X) {i : ℕ} {d : Dim V ℝ} (hd : f.dims[i]? = some d) (h1 : f.dims.length ≠ 1) :
    IsJoint (elimDim rangeIntegral f i d) P X := by
  obtain ⟨n, v, hv, hm, h0, hl⟩ := h
  have hlen : f.dims.length = n := by
    have := congrArg List.length hv
    simpa [Fac.vars] using this
  obtain ⟨hi, hd'⟩ := List.getElem?_eq_some_iff.1 hd
  obtain ⟨n, rfl⟩ : ∃ m, n = m + 1 := ⟨n - 1, by omega⟩
  rw [hlen] at hi
  have hn : n ≠ 0 := by omega
  obtain ⟨j, hj⟩ : ∃ j : Fin (n + 1), j.val = i := ⟨⟨i, hi⟩, rfl⟩
  have hcall : ∀ y : Fin n → ℝ, (NDim.elimDim rangeIntegral f i d).call (List.ofFn y) =
      ∫ x, f.call (List.ofFn (j.insertNth x y : Fin (n + 1) → ℝ)) := by
    intro y
    rw [elimDim_call hd (by simp [hlen]) (by simpa using hn)]
    simp only [ofFn_insertNth, hj]
  have hins : Measurable fun p : ℝ × (Fin n → ℝ) => (j.insertNth p.1 p.2 : Fin (n + 1) → ℝ) :=
    (MeasurableEquiv.piFinSuccAbove (fun _ => ℝ) j).symm.measurable
  have hF : Measurable fun p : ℝ × (Fin n → ℝ) => f.call (List.ofFn (j.insertNth p.1 p.2 : Fin (n + 1) → ℝ)) := hm.comp hins
  have hXm : ∀ {m : ℕ} (w : Fin m → V), Measurable fun ω i => X (w i) ω := fun w => measurable_pi_lambda _ fun i => hX _
  refine ⟨n, v ∘ j.succAbove, ?_, ?_, ?_, ?_⟩
  · have e : List.ofFn v = (List.ofFn (v ∘ j.succAbove)).take j ++ v j :: (List.ofFn (v ∘ j.succAbove)).drop j := by
      rw [← ofFn_insertNth]
      congr 1
      symm
      rw [Fin.insertNth_eq_iff]
      exact ⟨rfl, rfl⟩
    change (f.dims.eraseIdx i).map Dim.var = _
    rw [← List.eraseIdx_map]
    change f.vars.eraseIdx i = _
    have hl2 : ((List.ofFn (v ∘ j.succAbove)).take j).length = i := by simp; omega
    rw [hv, e, List.eraseIdx_append_of_length_le (by omega), hl2, Nat.sub_self, List.eraseIdx_cons_zero, List.take_append_drop]
  · rw [show (fun x : Fin n → ℝ => (NDim.elimDim rangeIntegral f i d).call (List.ofFn x)) = _ from funext hcall]
    exact (StronglyMeasurable.integral_prod_left (f := fun x y => f.call (List.ofFn (j.insertNth x y : Fin (n + 1) → ℝ)))
      hF.stronglyMeasurable).measurable
  · intro y
    rw [hcall]
    exact integral_nonneg fun x => h0 _
  · have hp : (volume : Measure (Fin (n + 1) → ℝ)) =
        ((volume : Measure ℝ).prod (volume : Measure (Fin n → ℝ))).map (MeasurableEquiv.piFinSuccAbove (fun _ => ℝ) j).symm :=
      (volume_preserving_piFinSuccAbove (fun _ => ℝ) j).symm.map_eq.symm
    have hgm : Measurable fun p : ℝ × (Fin n → ℝ) => ENNReal.ofReal (f.call (List.ofFn (j.insertNth p.1 p.2 : Fin (n + 1) → ℝ))) :=
      hF.ennreal_ofReal
    have hm' := hm.ennreal_ofReal
    -- probabilities as iterated integrals
    have key : ∀ B : Set (Fin n → ℝ), MeasurableSet B → P.map (fun ω i => X ((v ∘ j.succAbove) i) ω) B =
        ∫⁻ y in B, ∫⁻ x, ENNReal.ofReal (f.call (List.ofFn (j.insertNth x y : Fin (n + 1) → ℝ))) := by
      intro B hB
      have hr : Measurable fun x : Fin (n + 1) → ℝ => x ∘ j.succAbove := measurable_pi_lambda _ fun k => measurable_pi_apply _
      have e1 : P.map (fun ω i => X ((v ∘ j.succAbove) i) ω) = (P.map fun ω i => X (v i) ω).map fun x => x ∘ j.succAbove := by
        rw [Measure.map_map hr (hXm v)]
        rfl
      rw [e1, Measure.map_apply hr hB, hl, withDensity_apply _ (hr hB), hp,
        setLIntegral_map (hr hB) hm' (MeasurableEquiv.measurable _)]
      have e2 : (MeasurableEquiv.piFinSuccAbove (fun _ => ℝ) j).symm ⁻¹' ((fun x : Fin (n + 1) → ℝ => x ∘ j.succAbove) ⁻¹' B) =
          univ ×ˢ B := by
        ext p
        simp only [mem_preimage, mem_prod, mem_univ, true_and]
        have : ((MeasurableEquiv.piFinSuccAbove (fun _ => ℝ) j).symm p) ∘ j.succAbove = p.2 := by
          funext k
          exact Fin.insertNth_apply_succAbove (α := fun _ => ℝ) j p.1 p.2 k
        rw [this]
      rw [e2, ← Measure.prod_restrict, Measure.restrict_univ]
      exact lintegral_prod_symm _ hgm.aemeasurable
    have hfin : ∀ᵐ y : Fin n → ℝ, ∫⁻ x, ENNReal.ofReal (f.call (List.ofFn (j.insertNth x y : Fin (n + 1) → ℝ))) < ⊤ := by
      refine ae_lt_top ?_ ?_
      · exact Measurable.lintegral_prod_left' hgm
      · have := key univ MeasurableSet.univ
        rw [Measure.restrict_univ] at this
        rw [← this]
        exact measure_ne_top _ _
    refine Measure.ext fun B hB => ?_
    rw [key B hB, withDensity_apply _ hB]
    refine lintegral_congr_ae (ae_restrict_of_ae ?_)
    filter_upwards [hfin] with y hy
    rw [hcall, ofReal_integral_eq_lintegral_ofReal]
    · refine ⟨(hF.comp (measurable_id.prodMk measurable_const)).aestronglyMeasurable, ?_⟩
      rw [hasFiniteIntegral_iff_ofReal (Filter.Eventually.of_forall fun x => h0 _)]
      exact hy
    · exact Filter.Eventually.of_forall fun x => h0 _

/-- integrating out the only variable gives 1 -/
theorem IsJoint.elimLast {f : Fac V ℝ} {P : Measure Ω} [IsProbabilityMeasure P] {X : V → Ω → ℝ} (hX : ∀ v, Measurable (X v))
    (h : IsJoint f P X) {i : ℕ} {d : Dim V ℝ} (hd : f.dims[i]? = some d) (h1 : f.dims.length = 1) :
    rangeIntegral d (fun x => f.call [x]) = 1 := by
  obtain ⟨n, v, hv, hm, h0, hl⟩ := h
  have hlen : f.dims.length = n := by
    have := congrArg List.length hv
    simpa [Fac.vars] using this
  obtain rfl : n = 1 := by omega
  have hp : (volume : Measure (Fin 1 → ℝ)) = (volume : Measure ℝ).map (MeasurableEquiv.funUnique (Fin 1) ℝ).symm :=
    (volume_preserving_funUnique (Fin 1) ℝ).symm.map_eq.symm
  have hof : ∀ x : ℝ, List.ofFn ((MeasurableEquiv.funUnique (Fin 1) ℝ).symm x) = [x] := by
    intro x
    rw [List.ofFn_succ, List.ofFn_zero]
    rfl
  have hone : ∫⁻ x : ℝ, ENNReal.ofReal (f.call [x]) = 1 := by
    have h2 : P.map (fun ω i => X (v i) ω) univ = 1 := by
      rw [Measure.map_apply (measurable_pi_lambda _ fun i => hX _) MeasurableSet.univ, preimage_univ, measure_univ]
    rw [hl, withDensity_apply _ MeasurableSet.univ, Measure.restrict_univ, hp,
      lintegral_map hm.ennreal_ofReal (MeasurableEquiv.measurable _)] at h2
    simpa only [hof] using h2
  have hm1 : Measurable fun x : ℝ => f.call [x] := by
    have := hm.comp (MeasurableEquiv.funUnique (Fin 1) ℝ).symm.measurable
    simpa only [Function.comp_def, hof] using this
  have h01 : ∀ x : ℝ, 0 ≤ f.call [x] := fun x => by rw [← hof]; exact h0 _
  have e : rangeIntegral d (fun x => f.call [x]) = ∫ x, f.call [x] := by
    refine setIntegral_eq_integral_of_forall_compl_eq_zero fun x hx => call_out (by simp) ?_
    have hi : i = 0 := by
      have := (List.getElem?_eq_some_iff.1 hd).1
      omega
    subst hi
    have := mask_insert hd (Y := []) (by simpa using h1.symm) x
    rw [List.take_nil, List.drop_nil, List.nil_append] at this
    rw [this, Bool.and_eq_false_iff]
    right
    rw [Bool.eq_false_iff]
    exact fun hc => hx (inside_iff.1 hc)
  rw [e, integral_eq_lintegral_of_nonneg_ae (Filter.Eventually.of_forall h01) hm1.aestronglyMeasurable, hone]
  simp

/-- the constant 1 is the joint density of no variables -/
theorem isJoint_const {P : Measure Ω} [IsProbabilityMeasure P] (X : V → Ω → ℝ) : IsJoint (Fac.ofConst 1) P X := by
  have hc : ∀ x : Fin 0 → ℝ, (Fac.ofConst 1 : Fac V ℝ).call (List.ofFn x) = 1 := by
    intro x
    rw [List.ofFn_zero, Fac.call, if_pos rfl]
    simp [Fac.post, Fac.ofConst]
  refine ⟨0, Fin.elim0, by simp [Fac.vars, Fac.ofConst], ?_, ?_, ?_⟩
  · simp only [hc]
    exact measurable_const
  · intro x
    rw [hc]
    norm_num
  · simp only [hc, ENNReal.ofReal_one]
    rw [withDensity_const, one_smul, Measure.volume_pi_eq_dirac (fun i : Fin 0 => i.elim0)]
    refine Measure.ext fun B hB => ?_
    have e : (fun (ω : Ω) (i : Fin 0) => X (Fin.elim0 i) ω) = fun _ => fun i : Fin 0 => i.elim0 := by
      funext ω i
      exact i.elim0
    rw [e, Measure.map_const, measure_univ, one_smul]

theorem elimDim_vars (I : Dim V ℝ → (ℝ → ℝ) → ℝ) (f : Fac V ℝ) (i : ℕ) (d : Dim V ℝ) :
    (elimDim I f i d).vars = f.vars.eraseIdx i := by
  change (f.dims.eraseIdx i).map Dim.var = _
  rw [← List.eraseIdx_map]
  rfl

/-- positions in a sublist increase -/
theorem idxOf_sublist {α : Type} [DecidableEq α] {l vs : List α} (hl : l.Nodup) (h : vs.Sublist l) :
    vs.Pairwise fun a b => l.idxOf a < l.idxOf b := by
  refine List.Pairwise.sublist h ?_
  rw [List.pairwise_iff_getElem]
  intro i j hi hj hij
  rw [hl.idxOf_getElem, hl.idxOf_getElem]
  exact hij

/-- erasing an element does not move the elements before it -/
theorem idxOf_erase_of_lt {α : Type} [DecidableEq α] {v w : α} : ∀ {l : List α}, l.idxOf w < l.idxOf v → (l.erase v).idxOf w = l.idxOf w
  | [], h => by simp at h
  | a :: l, h => by
    by_cases ha : a = v
    · subst ha
      simp at h
    · rw [List.erase_cons_tail (by simpa using ha)]
      by_cases hw : a = w
      · subst hw
        simp
      · rw [List.idxOf_cons_ne _ hw, List.idxOf_cons_ne _ ha] at h
        rw [List.idxOf_cons_ne _ hw, List.idxOf_cons_ne _ hw, idxOf_erase_of_lt (by omega)]

variable [DecidableEq V]

/-- elimination of variables whose positions decrease -/
theorem elimRev_spec {P : Measure Ω} [IsProbabilityMeasure P] {X : V → Ω → ℝ} (hX : ∀ v, Measurable (X v)) (vs : List V) :
    ∀ f : Fac V ℝ, f.vars.Nodup → IsJoint f P X → (∀ v ∈ vs, v ∈ f.vars) →
      vs.Pairwise (fun a b => f.vars.idxOf b < f.vars.idxOf a) →
      ∃ g, elimRev rangeIntegral f (vs.map f.vars.idxOf) = .ok g ∧ IsJoint g P X ∧ g.vars = f.vars.filter (fun v => decide (v ∉ vs)) ∧
        (vs ≠ [] → g.vars = [] → g = Fac.ofConst 1) := by
  induction vs with
  | nil =>
    intro f _ hf _ _
    exact ⟨f, rfl, hf, by simp, fun h => absurd rfl h⟩
  | cons v vs ih =>
    intro f hn hf hmem hp
    have hlen : f.vars.length = f.dims.length := by simp [Fac.vars]
    have hv := hmem v (by simp)
    have hlt : f.vars.idxOf v < f.dims.length := by rw [← hlen]; exact List.idxOf_lt_length_of_mem hv
    obtain ⟨p1, p2⟩ := List.pairwise_cons.1 hp
    rw [List.map_cons, elimRev, if_neg (by
      rw [not_not]
      intro i hi
      obtain ⟨w, hw, rfl⟩ : ∃ w ∈ v :: vs, f.vars.idxOf w = i := by
        rcases List.mem_cons.1 hi with h | h
        · exact ⟨v, by simp, h.symm⟩
        · obtain ⟨w, hw, e⟩ := List.mem_map.1 h
          exact ⟨w, by simp [hw], e⟩
      rw [← hlen]
      exact List.idxOf_lt_length_of_mem (hmem w hw))]
    obtain ⟨d, hd⟩ : ∃ d, f.dims[f.vars.idxOf v]? = some d := ⟨_, List.getElem?_eq_getElem hlt⟩
    rw [hd]
    simp only
    split_ifs with h1
    · have hc := hf.elimLast hX hd h1
      refine ⟨_, rfl, by rw [hc]; exact isJoint_const X, ?_, fun _ _ => by rw [hc]⟩
      symm
      change _ = []
      rw [List.filter_eq_nil_iff]
      intro w hw
      obtain ⟨u, hu⟩ := List.length_eq_one_iff.1 (hlen.trans h1)
      rw [hu, List.mem_singleton] at hv hw
      simp [hv, hw]
    · have he : (NDim.elimDim rangeIntegral f (f.vars.idxOf v) d).vars = f.vars.erase v := by
        rw [elimDim_vars, List.erase_eq_eraseIdx_of_idxOf rfl]
      have hj := hf.elimDim hX hd h1
      have hsub : ∀ w ∈ vs, w ∈ f.vars.erase v := by
        intro w hw
        refine (List.mem_erase_of_ne ?_).2 (hmem w (by simp [hw]))
        rintro rfl
        exact lt_irrefl _ (p1 _ hw)
      have hidx : ∀ w ∈ vs, (f.vars.erase v).idxOf w = f.vars.idxOf w := by
        intro w hw
        exact idxOf_erase_of_lt (p1 w hw)
      obtain ⟨g, g1, g2, g3, g4⟩ := ih (NDim.elimDim rangeIntegral f (f.vars.idxOf v) d) (by rw [he]; exact hn.erase v) hj (by rw [he]; exact hsub)
        (by
          rw [he]
          refine p2.imp_of_mem fun {a b} ha hb hab => ?_
          rw [hidx a ha, hidx b hb]
          exact hab)
      refine ⟨g, ?_, g2, ?_, fun _ hg => g4 ?_ hg⟩
      · rw [← g1, he]
        congr 1
        refine List.map_congr_left fun w hw => (hidx w hw).symm
      · rw [g3, he, hn.erase_eq_filter, List.filter_filter]
        refine List.filter_congr fun w _ => ?_
        by_cases h1 : w = v <;> by_cases h2 : w ∈ vs <;> simp [h1, h2]
      · rintro rfl
        rw [g3, he] at hg
        simp only [List.not_mem_nil, not_false_eq_true, decide_true, List.filter_true] at hg
        have := congrArg List.length hg
        rw [List.length_erase_of_mem hv, List.length_nil] at this
        omega

end Pacal.NDim
