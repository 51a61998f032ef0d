import Verif.NDim.LemCond
import Verif.NDim.PropsElim

/-!
C87: conditional densities.
-/

open MeasureTheory Set Function

namespace Pacal.NDim

variable {V : Type} [DecidableEq V] {Ω : Type*} [MeasurableSpace Ω]

/-- The values of what is left after an elimination are iterated integrals over the eliminated variables, the last one first -/
theorem C86_values_partial {f : Fac V ℝ} (hn : f.vars.Nodup) {vs : List V} (hs : vs.Sublist f.vars) :
    ∃ g, eliminateVars rangeIntegral f vs = .ok g ∧ ∀ σ, g.dens σ = integ overR vs.reverse f.dens σ := by
  obtain ⟨g, g1, -, -, g4⟩ := elim_dens hn hs
  refine ⟨g, ?_, g4⟩
  rw [eliminateVars, Product.prepareVar_ok fun v hv => hs.subset hv]
  exact g1

/-- `ConditionalDistr(f, vs)` of a joint density `f`, with the condition `vs` listed in the order of the variables, never fails and is a
conditional density of the other variables given `vs`: multiplied by a density of the condition it is a joint density of all the variables,
and it integrates to 1 for any condition of positive density.  Missing from the full property: conditions listed in another order
(`C87_violated_order`). -/
theorem C87_density_partial {P : Measure Ω} [IsProbabilityMeasure P] {X : V → Ω → ℝ} (hX : ∀ v, Measurable (X v)) {f : Fac V ℝ}
    (hf : IsJoint f P X) (hn : f.vars.Nodup) {vs : List V} (hs : vs.Sublist f.vars) :
    ∃ c q m, conditional rangeIntegral f vs none = .ok c ∧ c.vars = f.vars ∧ (∀ σ, c.call (f.vars.map σ) = .ok (q σ)) ∧
      IsCond q f.vars (f.vars.filter fun v => decide (v ∉ vs)).reverse vs P X m := by
  obtain ⟨m, c1, c2, c3, c4, c5⟩ := conditional_ok hn (fun v hv => hs.subset hv) (hn.sublist hs)
  obtain ⟨m', e1, -, e3⟩ := C86_eliminate_partial hX hf hn (List.filter_sublist (l := f.vars) (p := fun v => decide (v ∉ vs)))
  obtain rfl : m = m' := Except.ok.inj (c3.symm.trans e1)
  rw [filter_sublist_eq hs hn] at c2
  have h := isCond_div (rest := (f.vars.filter fun v => decide (v ∉ vs)).reverse) hX hf e3 hn (by rw [c2]; exact fun v hv => hs.subset hv)
    (by
      intro v hv
      rw [c2]
      simpa using (List.mem_filter.1 (List.mem_reverse.1 hv)).2) c4
  refine ⟨_, _, m, c1, rfl, c5, ?_⟩
  rw [c2] at h
  have e : (fun σ => f.dens σ / m.call (vs.map σ)) = fun σ => f.dens σ / m.dens σ := by
    funext σ
    rw [Fac.dens, Fac.dens, c2]
  rw [e]
  exact h

/-- What the code computes for a condition listed in any order: the marginal density gets its arguments in the given order, while its
variables are in the order of the joint density -/
theorem C87_arguments {f : Fac V ℝ} (hn : f.vars.Nodup) {vs : List V} (hs : ∀ v ∈ vs, v ∈ f.vars) (hvs : vs.Nodup) :
    ∃ c, ∃ m : Fac V ℝ, conditional rangeIntegral f vs none = .ok c ∧ m.vars = f.vars.filter (fun v => decide (v ∈ vs)) ∧
      (∀ σ, m.dens σ = integ overR (f.vars.filter fun v => decide (v ∉ vs)).reverse f.dens σ) ∧
      ∀ σ, c.call (f.vars.map σ) = .ok (f.dens σ / m.call (vs.map σ)) := by
  obtain ⟨m, c1, c2, -, c4, c5⟩ := conditional_ok hn hs hvs
  exact ⟨_, m, c1, c2, c4, c5⟩

/-- Eliminating some of the other variables from a conditional density gives a conditional density of the rest, given the same condition -/
theorem C87_eliminate_partial {P : Measure Ω} [IsProbabilityMeasure P] {X : V → Ω → ℝ} (hX : ∀ v, Measurable (X v)) {f : Fac V ℝ}
    (hf : IsJoint f P X) (hn : f.vars.Nodup) {vs : List V} (hs : vs.Sublist f.vars) {us : List V} (hu : us.Sublist f.vars)
    (hd : ∀ v ∈ us, v ∉ vs) {w : V} (hw : w ∈ f.vars) (hwv : w ∉ vs) (hwu : w ∉ us) :
    ∃ c c' q m, conditional rangeIntegral f vs none = .ok c ∧ c.eliminate rangeIntegral us = .ok (.cond c') ∧
      c'.vars = f.vars.filter (fun v => decide (v ∉ us)) ∧ (∀ σ, c'.call (c'.vars.map σ) = .ok (q σ)) ∧
      IsCond q c'.vars (f.vars.filter fun v => decide (v ∉ vs ∧ v ∉ us)).reverse vs P X m := by
  have hlen : f.vars.length = f.dims.length := by simp [Fac.vars]
  obtain ⟨m, c1, -⟩ := conditional_ok hn (fun v hv => hs.subset hv) (hn.sublist hs)
  obtain ⟨g, g1, g2, g3⟩ := C86_eliminate_partial hX hf hn hu
  have hgn : g.vars.Nodup := by rw [g2]; exact hn.filter _
  have hsg : vs.Sublist g.vars := by
    rw [g2]
    have h := hs.filter fun v => decide (v ∉ us)
    rwa [List.filter_eq_self.2 fun v hv => by simpa using fun h' => hd v h' hv] at h
  obtain ⟨c', q, m', e1, e2, e3, e4⟩ := C87_density_partial hX g3 hgn hsg
  rw [eliminateVars, Product.prepareVar_ok fun v hv => hu.subset hv] at g1
  change eliminateIdx rangeIntegral f (us.map f.vars.idxOf) none none = .ok g at g1
  refine ⟨_, c', q, m', c1, ?_, e2.trans g2, ?_, ?_⟩
  · rw [CondFac.eliminate, CondFac.vars, Product.prepareVar_ok fun v hv => hu.subset hv]
    change (if _ then _ else _) = _
    rw [if_neg, if_neg]
    · simp only
      rw [g1]
      change (conditional rangeIntegral g (varsAt f.vars (vs.map f.vars.idxOf)) none >>= _) = _
      rw [varsAt_idxOf fun v hv => hs.subset hv, e1]
      rfl
    · rintro ⟨i, hi, hi'⟩
      obtain ⟨a, ha, rfl⟩ := List.mem_map.1 hi
      obtain ⟨b, hb, e⟩ := List.mem_map.1 hi'
      rw [(List.idxOf_inj (hs.subset hb)).1 e] at hb
      exact hd a ha hb
    · rintro ⟨h1, -⟩
      simp only at h1
      rw [← hlen] at h1
      obtain ⟨b, hb, e⟩ := List.mem_map.1 (h1 (f.vars.idxOf w) ((mem_others hn (fun v hv => hu.subset hv) hw).2 hwu))
      rw [(List.idxOf_inj (hs.subset hb)).1 e] at hb
      exact hwv hb
  · rw [e2]
    exact e3
  · rw [e2]
    have e : (f.vars.filter fun v => decide (v ∉ vs ∧ v ∉ us)) = g.vars.filter fun v => decide (v ∉ vs) := by
      rw [g2, List.filter_filter]
      refine List.filter_congr fun v _ => ?_
      simp
    rw [e]
    exact e4

/-- Eliminating all of the other variables, in any order, gives the factor 1 -/
theorem C87_eliminate_all {f : Fac V ℝ} (hn : f.vars.Nodup) {vs : List V} (hs : ∀ v ∈ vs, v ∈ f.vars) (hvs : vs.Nodup) {us : List V}
    (hu : ∀ v, v ∈ us ↔ v ∈ f.vars ∧ v ∉ vs) :
    ∃ c, conditional rangeIntegral f vs none = .ok c ∧ c.eliminate rangeIntegral us = .ok (.fac Fac.ofOne) := by
  have hlen : f.vars.length = f.dims.length := by simp [Fac.vars]
  obtain ⟨m, c1, -⟩ := conditional_ok hn hs hvs
  refine ⟨_, c1, ?_⟩
  have hum : ∀ v ∈ us, v ∈ f.vars := fun v hv => ((hu v).1 hv).1
  rw [CondFac.eliminate, CondFac.vars, Product.prepareVar_ok hum]
  change (if _ then _ else _) = _
  rw [if_pos]
  simp only
  rw [← hlen]
  constructor
  · intro i hi
    rw [others_eq hn hum] at hi
    obtain ⟨v, hv, rfl⟩ := List.mem_map.1 hi
    obtain ⟨v1, v2⟩ := List.mem_filter.1 hv
    have := (hu v).not.1 (by simpa using v2)
    exact List.mem_map.2 ⟨v, by tauto, rfl⟩
  · intro i hi
    obtain ⟨v, hv, rfl⟩ := List.mem_map.1 hi
    refine (mem_others hn hum (hs v hv)).2 fun h => ?_
    exact ((hu v).1 h).2 hv

/-- Eliminating a variable of the condition is refused -/
theorem C87_eliminate_refused {f : Fac V ℝ} (hn : f.vars.Nodup) {vs : List V} (hs : ∀ v ∈ vs, v ∈ f.vars) (hvs : vs.Nodup) {us : List V}
    (hu : ∀ v ∈ us, v ∈ f.vars) {w : V} (hw : w ∈ us) (hw' : w ∈ vs) :
    ∃ c, conditional rangeIntegral f vs none = .ok c ∧ c.eliminate rangeIntegral us = .error .ambiguous := by
  have hlen : f.vars.length = f.dims.length := by simp [Fac.vars]
  obtain ⟨m, c1, -⟩ := conditional_ok hn hs hvs
  refine ⟨_, c1, ?_⟩
  rw [CondFac.eliminate, CondFac.vars, Product.prepareVar_ok hu]
  change (if _ then _ else _) = _
  rw [if_neg, if_pos]
  · exact ⟨f.vars.idxOf w, List.mem_map.2 ⟨w, hw, rfl⟩, List.mem_map.2 ⟨w, hw', rfl⟩⟩
  · simp only
    rw [← hlen]
    rintro ⟨-, h2⟩
    exact (mem_others hn hu (hs w hw')).1 (h2 _ (List.mem_map.2 ⟨w, hw', rfl⟩)) hw

/-- Conditioning a joint density on values of variables (listed in any order, each value in the range of its variable) gives the
quotient of the joint density by the density of the condition; `override` puts the values in -/
theorem C87_condition {f : Fac V ℝ} (hn : f.vars.Nodup) {vs : List V} {xs : List ℝ} (hvs : vs.Nodup) (hm : ∀ v ∈ vs, v ∈ f.vars)
    (hl : xs.length = vs.length) (hr : ∀ p ∈ vs.zip xs, ∀ d ∈ f.dims, d.var = p.1 → d.a ≤ Ext.fin p.2 ∧ Ext.fin p.2 ≤ d.b)
    (hne : ∃ w ∈ f.vars, w ∉ vs) :
    ∃ g m, conditionVars rangeIntegral f vs xs = .ok g ∧ g.vars = f.vars.filter (fun v => decide (v ∉ vs)) ∧
      eliminateVars rangeIntegral f (f.vars.filter fun v => decide (v ∉ vs)) = .ok m ∧
      ∀ σ, g.dens σ = f.dens (override (vs.zip xs) σ) / m.dens (override (vs.zip xs) σ) := by
  have hne' : f.vars.filter (fun v => decide (v ∉ vs)) ≠ [] := by
    obtain ⟨w, h1, h2⟩ := hne
    exact List.ne_nil_of_mem (List.mem_filter.2 ⟨h1, by simpa using h2⟩)
  obtain ⟨g, g1, g2, g3⟩ := conditionIdx_ok hn hvs hm hl hr hne'
  obtain ⟨m, -, -, m3, m4, -⟩ := conditional_ok hn hm hvs
  refine ⟨g, m, ?_, g2, m3, fun σ => ?_⟩
  · rw [conditionVars, Product.prepareVar_ok hm]
    exact g1
  · have e1 : (vs.zip xs).map Prod.fst = vs := List.map_fst_zip (by omega)
    rw [g3, m4, integ_override]
    intro v hv
    rw [e1]
    simpa using (List.mem_filter.1 (List.mem_reverse.1 hv)).2

/-- Conditioning a conditional density on values of its whole condition gives its values there -/
theorem C87_condition_all {f : Fac V ℝ} (hn : f.vars.Nodup) {vs : List V} {xs : List ℝ} (hs : vs.Sublist f.vars)
    (hl : xs.length = vs.length) (hr : ∀ p ∈ vs.zip xs, ∀ d ∈ f.dims, d.var = p.1 → d.a ≤ Ext.fin p.2 ∧ Ext.fin p.2 ≤ d.b)
    (hne : ∃ w ∈ f.vars, w ∉ vs) :
    ∃ c g, ∃ q : (V → ℝ) → ℝ, conditional rangeIntegral f vs none = .ok c ∧ (∀ σ, c.call (f.vars.map σ) = .ok (q σ)) ∧
      c.condition rangeIntegral vs xs = .ok (.fac g) ∧ g.vars = f.vars.filter (fun v => decide (v ∉ vs)) ∧
      ∀ σ, g.dens σ = q (override (vs.zip xs) σ) := by
  have hm : ∀ v ∈ vs, v ∈ f.vars := fun v hv => hs.subset hv
  have hvs := hn.sublist hs
  obtain ⟨m, c1, c2, c3, c4, c5⟩ := conditional_ok hn hm hvs
  obtain ⟨g, m', g1, g2, g3, g4⟩ := C87_condition hn hvs hm hl hr hne
  obtain rfl : m = m' := Except.ok.inj (c3.symm.trans g3)
  rw [filter_sublist_eq hs hn] at c2
  refine ⟨_, g, _, c1, c5, ?_, g2, fun σ => ?_⟩
  · rw [CondFac.condition, CondFac.vars, Product.prepareVar_ok hm]
    rw [conditionVars, Product.prepareVar_ok hm] at g1
    change (conditionIdx rangeIntegral f (vs.map f.vars.idxOf) xs >>= _) = _
    rw [show conditionIdx rangeIntegral f (vs.map f.vars.idxOf) xs = .ok g from g1]
    change (if _ then _ else _) = _
    rw [if_pos]
    rw [List.filter_eq_nil_iff]
    intro i _
    simp
  · rw [g4, Fac.dens.eq_1 m, c2]

/-- A condition listed in another order than the variables of the joint density gives wrong values: with a density proportional to
`1 + x₁` on the unit cube (and a mean over the ends of the range in place of the integral), conditioned on the variables 2 and 1 in this
order, the value at (0, 0, 1) is 1/2 and not 1, because the marginal density is called with `x₂` in the place of `x₁`. -/
theorem C87_violated_order :
    ((conditional (fun _ (g : ℚ → ℚ) => (g 0 + g 1) / 2)
      { kind := .gen, dims := [0, 1, 2].map fun v => ⟨v, Ext.fin 0, Ext.fin 1⟩, fn := fun X => 1 + X.getD 1 0, abs := false }
      [2, 1] none).bind fun (c : CondFac ℕ ℚ) => c.call [0, 0, 1]) = .ok (1 / 2) ∧
    ((conditional (fun _ (g : ℚ → ℚ) => (g 0 + g 1) / 2)
      { kind := .gen, dims := [0, 1, 2].map fun v => ⟨v, Ext.fin 0, Ext.fin 1⟩, fn := fun X => 1 + X.getD 1 0, abs := false }
      [1, 2] none).bind fun (c : CondFac ℕ ℚ) => c.call [0, 0, 1]) = .ok 1 := by
  constructor <;> decide +kernel

/-- Conditioning a conditional density on a part of its condition gives an object that cannot be evaluated: it keeps the density of the
old condition and calls it with too few arguments.  Stated for three variables, a condition on 1 and 2, and a value for 2. -/
theorem C87_violated_part {f : Fac ℕ ℝ} (hf : f.vars = [0, 1, 2]) {x : ℝ}
    (hr : ∀ d ∈ f.dims, d.var = 2 → d.a ≤ Ext.fin x ∧ Ext.fin x ≤ d.b) :
    ∃ c c', conditional rangeIntegral f [1, 2] none = .ok c ∧ c.condition rangeIntegral [2] [x] = .ok (.cond c') ∧ c'.vars = [0, 1] ∧
      ∀ x₀ x₁, c'.call [x₀, x₁] = .error .badIndex := by
  have hn : f.vars.Nodup := by rw [hf]; decide
  have hlen : f.dims.length = 3 := by
    have := congrArg List.length hf
    simpa [Fac.vars] using this
  obtain ⟨m, c1, c2, -, -, -⟩ := conditional_ok (vs := [1, 2]) hn (by rw [hf]; decide) (by decide)
  obtain ⟨g, g1, g2, -⟩ := conditionIdx_ok (vs := [2]) (xs := [x]) hn (by decide) (by rw [hf]; decide) rfl (by simpa using hr)
    (by rw [hf]; decide)
  rw [hf] at c1 c2 g1 g2
  have hm : m.dims.length = 2 := by
    have := congrArg List.length c2
    rw [Fac.vars, List.length_map] at this
    rw [this]
    decide
  have hgv : g.vars = [0, 1] := by rw [g2]; decide
  refine ⟨_, ⟨g, [1], m⟩, c1, ?_, hgv, fun x₀ x₁ => ?_⟩
  · rw [CondFac.condition, CondFac.vars, hf]
    change (conditionIdx rangeIntegral f [2] [x] >>= _) = _
    rw [show conditionIdx rangeIntegral f [2] [x] = .ok g from g1]
    change (if _ then _ else _) = _
    rw [hlen, if_neg (by
      change ¬ (List.range 3).filter (fun i => decide (i ∈ ([1, 2] : List ℕ) ∧ i ∉ ([2] : List ℕ))) = []
      decide)]
    simp only
    rw [conditional, hgv]
    rfl
  · rw [CondFac.call]
    change (if _ then _ else _) = _
    rw [if_pos]
    simp only
    rw [hm]
    simp

/-! ### the hypotheses can be met -/

example : ((conditional (fun _ (g : ℚ → ℚ) => (g 0 + g 1) / 2)
      { kind := .gen, dims := [0, 1, 2].map fun v => ⟨v, Ext.fin 0, Ext.fin 1⟩, fn := fun X => 1 + X.sum, abs := false }
      [1] none).bind fun (c : CondFac ℕ ℚ) => c.call [1/2, 1/3, 1/4]) = .ok (25 / 28) := by decide +kernel

example : ((conditionVars (fun _ (g : ℚ → ℚ) => (g 0 + g 1) / 2)
      { kind := .gen, dims := [0, 1, 2].map fun v => ⟨v, Ext.fin 0, Ext.fin 1⟩, fn := fun X => 1 + X.sum, abs := false }
      [2, 0] [1/4, 1/2]).map fun (g : Fac ℕ ℚ) => (g.vars, g.call [1/3])) = .ok ([1], 25 / 27) := by decide +kernel

/-- the joint density of the example of C86, conditioned on the second variable -/
example : ∃ c, conditional rangeIntegral unitSq [1] none = .ok c ∧ c.vars = [0, 1] := by
  obtain ⟨m, h, -⟩ := conditional_ok (f := unitSq) (vs := [1]) (by decide) (by decide) (by decide)
  exact ⟨_, h, rfl⟩

end Pacal.NDim
