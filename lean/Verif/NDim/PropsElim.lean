import Verif.NDim.LemElim
import Verif.Segments.Lemmas

/-!
C86: eliminating variables from a joint density gives the joint density of the others.
-/

open MeasureTheory Set

namespace Pacal.NDim

variable {V : Type} [DecidableEq V] {Ω : Type*} [MeasurableSpace Ω]

/-- Eliminating variables, listed in the order they have in the joint density, never fails; the result has exactly the other variables, in
the same order, and is their joint density.  When all variables are eliminated it is the constant 1.  Missing from the full property:
variables listed in another order (`C86_violated_order`). -/
theorem C86_eliminate_partial {P : Measure Ω} [IsProbabilityMeasure P] {X : V → Ω → ℝ} (hX : ∀ v, Measurable (X v)) {f : Fac V ℝ}
    (hf : IsJoint f P X) (hn : f.vars.Nodup) {vs : List V} (hs : vs.Sublist f.vars) :
    ∃ g, eliminateVars rangeIntegral f vs = .ok g ∧ g.vars = f.vars.filter (fun v => decide (v ∉ vs)) ∧ IsJoint g P X := by
  have hmem : ∀ v ∈ vs, v ∈ f.vars := fun v hv => hs.subset hv
  obtain ⟨g, g1, g2, g3, -⟩ := elimRev_spec hX vs.reverse f hn hf (by simpa using hmem)
    (by rw [List.pairwise_reverse]; exact idxOf_sublist hn hs)
  refine ⟨g, ?_, by simpa using g3, g2⟩
  rw [eliminateVars, Product.prepareVar_ok hmem]
  change elimRev rangeIntegral f (vs.map f.vars.idxOf).reverse = _
  rw [← List.map_reverse]
  exact g1

/-- Eliminating all the variables gives the number 1 -/
theorem C86_total {P : Measure Ω} [IsProbabilityMeasure P] {X : V → Ω → ℝ} (hX : ∀ v, Measurable (X v)) {f : Fac V ℝ}
    (hf : IsJoint f P X) (hn : f.vars.Nodup) (h : f.vars ≠ []) :
    eliminateVars rangeIntegral f f.vars = .ok (Fac.ofConst 1) := by
  obtain ⟨g, g1, g2, g3, g4⟩ := elimRev_spec hX f.vars.reverse f hn hf (by simp)
    (by rw [List.pairwise_reverse]; exact idxOf_sublist hn (List.Sublist.refl _))
  rw [eliminateVars, Product.prepareVar_ok fun v hv => hv]
  change elimRev rangeIntegral f (f.vars.map f.vars.idxOf).reverse = _
  rw [← List.map_reverse]
  refine g1.trans (congrArg _ (g4 (by simpa using h) ?_))
  rw [g3, List.filter_eq_nil_iff]
  intro v hv
  simp [hv]

/-- The outcome does not depend on whether variables are eliminated at once or one after another -/
theorem C86_successive {P : Measure Ω} [IsProbabilityMeasure P] {X : V → Ω → ℝ} (hX : ∀ v, Measurable (X v)) {f : Fac V ℝ}
    (hf : IsJoint f P X) (hn : f.vars.Nodup) {vs : List V} (hs : vs.Sublist f.vars) {us : List V}
    (hu : us.Sublist (f.vars.filter fun v => decide (v ∉ vs))) :
    ∃ g h, eliminateVars rangeIntegral f vs = .ok g ∧ eliminateVars rangeIntegral g us = .ok h ∧ IsJoint h P X ∧
      ∀ v, v ∈ h.vars ↔ v ∈ f.vars ∧ v ∉ vs ∧ v ∉ us := by
  obtain ⟨g, g1, g2, g3⟩ := C86_eliminate_partial hX hf hn hs
  obtain ⟨h, h1, h2, h3⟩ := C86_eliminate_partial (vs := us) hX g3 (by rw [g2]; exact hn.filter _) (by rw [g2]; exact hu)
  refine ⟨g, h, g1, h1, h3, fun v => ?_⟩
  rw [h2, g2]
  simp only [List.mem_filter, decide_eq_true_eq]
  tauto

/-- A variable that the density does not have is refused -/
theorem C86_unknown {K : Type} [LinearOrder K] [Field K] (I : Dim V K → (K → K) → K) (f : Fac V K) {vs : List V} {v : V} (hv : v ∈ vs)
    (h : v ∉ f.vars) : eliminateVars I f vs = .error .badIndex := by
  have : prepareVar f.vars vs = .error .badIndex := by
    induction vs with
    | nil => simp at hv
    | cons w vs ih =>
      rw [prepareVar, List.mapM_cons, indexOf]
      by_cases hw : w ∈ f.vars
      · have hv' : v ∈ vs := by
          rcases List.mem_cons.1 hv with rfl | hv'
          · exact absurd hw h
          · exact hv'
        rw [if_pos hw]
        change (prepareVar f.vars vs >>= fun r => pure (f.vars.idxOf w :: r)) = _
        rw [ih hv']
        rfl
      · rw [if_neg hw]
        rfl
  rw [eliminateVars, this]
  rfl

/-- The variables are eliminated from the last to the first in the *given* order, and their numbers are not adjusted when a dimension
has been removed: eliminating the variables 2 and 0 of a joint density of four variables, in this order, integrates out 0 and 3 and
returns the density of 1 and 2 instead of that of 1 and 3. -/
theorem C86_violated_order {K : Type} [LinearOrder K] [Field K] (I : Dim ℕ K → (K → K) → K) (f : Fac ℕ K) (hf : f.vars = [0, 1, 2, 3]) :
    (∃ g, eliminateVars I f [2, 0] = .ok g ∧ g.vars = [1, 2]) ∧ ∃ g, eliminateVars I f [0, 2] = .ok g ∧ g.vars = [1, 3] := by
  obtain ⟨k, dims, fn, ab⟩ := f
  rcases dims with _ | ⟨d0, _ | ⟨d1, _ | ⟨d2, _ | ⟨d3, _ | ⟨d4, ds⟩⟩⟩⟩⟩ <;> simp [Fac.vars] at hf
  obtain ⟨h0, h1, h2, h3⟩ := hf
  have p : Fac.vars ⟨k, [d0, d1, d2, d3], fn, ab⟩ = [0, 1, 2, 3] := by simp [Fac.vars, *]
  constructor
  · rw [eliminateVars, p]
    refine ⟨_, rfl, ?_⟩
    simp [Fac.vars, elimDim, h1, h2]
  · rw [eliminateVars, p]
    refine ⟨_, rfl, ?_⟩
    simp [Fac.vars, elimDim, h1, h3]

/-- With three variables the same request fails: after the first variable has been removed the number 2 is out of range. -/
theorem C86_violated_refused {K : Type} [LinearOrder K] [Field K] (I : Dim ℕ K → (K → K) → K) (f : Fac ℕ K) (hf : f.vars = [0, 1, 2]) :
    eliminateVars I f [2, 0] = .error .badIndex ∧ ∃ g, eliminateVars I f [0, 2] = .ok g ∧ g.vars = [1] := by
  obtain ⟨k, dims, fn, ab⟩ := f
  rcases dims with _ | ⟨d0, _ | ⟨d1, _ | ⟨d2, _ | ⟨d3, ds⟩⟩⟩⟩ <;> simp [Fac.vars] at hf
  obtain ⟨h0, h1, h2⟩ := hf
  have p : Fac.vars ⟨k, [d0, d1, d2], fn, ab⟩ = [0, 1, 2] := by simp [Fac.vars, *]
  constructor
  · rw [eliminateVars, p]
    rfl
  · rw [eliminateVars, p]
    refine ⟨_, rfl, ?_⟩
    simp [Fac.vars, elimDim, h1]

/-- A product passes the remaining variables on in the given order, so it is affected too: with a single factor of five variables, asking for
the elimination of 0, 3 and 1 leaves the variables 2 and 3 instead of 2 and 4. -/
theorem C86_violated_product :
    ((Product.mk' id [({ kind := .gen, dims := [0, 1, 2, 3, 4].map fun v => ⟨v, Ext.fin 0, Ext.fin 1⟩, fn := List.sum, abs := false } :
        Fac ℕ ℚ)]).bind fun P =>
      (P.eliminate id (eliminateVars fun _ g => (g 0 + g 1) / 2) 3 [0, 3, 1]).map fun r => r.vars) = .ok [2, 3] := by
  decide +kernel

/-- The documented integration limits have no effect. -/
theorem C86_finding_limits {K : Type} [LinearOrder K] [Field K] (I : Dim V K → (K → K) → K) (f : Fac V K) (var : List ℕ) (a b : Option K) :
    eliminateIdx I f var a b = eliminateIdx I f var none none := rfl

/-! ### the hypotheses can be met -/

section Examples

/-- the uniform density on the unit square -/
noncomputable def unitSq : Fac (Fin 2) ℝ :=
  { kind := .gen, dims := [⟨0, Ext.fin 0, Ext.fin 1⟩, ⟨1, Ext.fin 0, Ext.fin 1⟩], fn := fun _ => 1, abs := false }

open Classical in
theorem unitSq_call (x : Fin 2 → ℝ) : unitSq.call (List.ofFn x) = (Icc 0 1).indicator (fun _ => 1) x := by
  have e : List.ofFn x = [x 0, x 1] := by simp [List.ofFn_succ]
  have hm : arrayMask unitSq.dims [x 0, x 1] = true ↔ x ∈ Icc (0 : Fin 2 → ℝ) 1 := by
    rw [mem_Icc, Pi.le_def, Pi.le_def, Fin.forall_fin_two, Fin.forall_fin_two]
    simp only [arrayMask, unitSq, List.zipWith_cons_cons, List.zipWith_nil_left, List.foldl_cons, List.foldl_nil, Dim.inside, Bool.and_eq_true,
      decide_eq_true_eq, Ext.fin_le_fin, Pi.zero_apply, Pi.one_apply]
    tauto
  rw [e, Fac.call, if_neg (by simp), indicator_apply]
  by_cases h : x ∈ Icc (0 : Fin 2 → ℝ) 1
  · rw [if_pos h, if_pos (hm.2 h)]
    simp [Fac.post, unitSq]
  · rw [if_neg h, if_neg (fun h' => h (hm.1 h'))]
    simp [Fac.post, unitSq]

example : ∃ (P : Measure (Fin 2 → ℝ)) (X : Fin 2 → (Fin 2 → ℝ) → ℝ), IsProbabilityMeasure P ∧ (∀ v, Measurable (X v)) ∧
    IsJoint unitSq P X ∧ unitSq.vars.Nodup ∧ [1].Sublist unitSq.vars := by
  classical
  have hm : (fun x : Fin 2 → ℝ => ENNReal.ofReal (unitSq.call (List.ofFn x))) = (Icc 0 1).indicator 1 := by
    funext x
    rw [unitSq_call, indicator_apply, indicator_apply]
    split_ifs <;> simp
  refine ⟨volume.withDensity fun x : Fin 2 → ℝ => ENNReal.ofReal (unitSq.call (List.ofFn x)), fun v x => x v, ⟨?_⟩, fun v => measurable_pi_apply v,
    ⟨2, id, by simp [unitSq, Fac.vars, List.ofFn_succ], ?_, ?_, ?_⟩, by decide, by decide⟩
  · rw [hm, withDensity_indicator_one measurableSet_Icc, Measure.restrict_apply_univ, Real.volume_Icc_pi]
    simp
  · simp only [unitSq_call]
    exact measurable_const.indicator measurableSet_Icc
  · intro x
    rw [unitSq_call]
    exact indicator_nonneg (fun _ _ => zero_le_one) _
  · exact Measure.map_id

example : ((eliminateVars (fun _ (g : ℚ → ℚ) => (g 0 + g 1) / 2)
    { kind := .gen, dims := [0, 1, 2].map fun v => ⟨v, Ext.fin 0, Ext.fin 1⟩, fn := fun X => X.sum * X.headD 0, abs := false }
    [0, 2]).map fun (g : Fac ℕ ℚ) => (g.vars, g.call [1/2])) = .ok ([1], 1) := by
  decide +kernel

end Examples

end Pacal.NDim
