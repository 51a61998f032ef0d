import Verif.NDim.SpecCond
import Verif.NDim.LemElim
import Verif.NDim.TotalLemmas
import Verif.NDim.CondLemmas

/-! Lemmas on conditional densities. -/

open MeasureTheory Set Function

namespace Pacal.NDim

variable {V : Type} [DecidableEq V] {Ω : Type*} [MeasurableSpace Ω]

theorem filter_sublist_eq {α : Type} [DecidableEq α] {vs l : List α} (h : vs.Sublist l) (hn : l.Nodup) :
    l.filter (fun v => decide (v ∈ vs)) = vs := by
  induction h with
  | slnil => rfl
  | @cons l₁ l₂ a h ih =>
    obtain ⟨h1, h2⟩ := List.nodup_cons.1 hn
    rw [List.filter_cons_of_neg (by simpa using fun h' => h1 (h.subset h')), ih h2]
  | @cons_cons l₁ l₂ a h ih =>
    obtain ⟨h1, h2⟩ := List.nodup_cons.1 hn
    rw [List.filter_cons_of_pos (by simp)]
    congr 1
    refine (List.filter_congr fun x hx => ?_).trans (ih h2)
    have : x ≠ a := fun e => h1 (e ▸ hx)
    simp [this]

theorem map_idxOf_self {α : Type} [DecidableEq α] {l : List α} (hn : l.Nodup) : l.map l.idxOf = List.range l.length := by
  refine List.ext_getElem (by simp) fun i h1 h2 => ?_
  rw [List.getElem_map, hn.idxOf_getElem, List.getElem_range]

theorem others_eq {l vs : List V} (hn : l.Nodup) (h : ∀ v ∈ vs, v ∈ l) :
    others l.length (vs.map l.idxOf) = (l.filter fun v => decide (v ∉ vs)).map l.idxOf := by
  rw [others, ← map_idxOf_self hn, List.filter_map]
  congr 1
  refine List.filter_congr fun v hv => ?_
  simp only [comp_apply, List.mem_map, decide_eq_decide]
  refine not_congr ⟨?_, fun hv' => ⟨v, hv', rfl⟩⟩
  rintro ⟨w, hw, e⟩
  rwa [← (List.idxOf_inj (h w hw)).1 e]

/-- the value after integrating out one of several variables -/
theorem elimDim_dens {f : Fac V ℝ} (hn : f.vars.Nodup) {i : ℕ} {d : Dim V ℝ} (hd : f.dims[i]? = some d) (h1 : f.dims.length ≠ 1) (σ : V → ℝ) :
    (elimDim rangeIntegral f i d).dens σ = ∫ x, f.dens (update σ d.var x) := by
  obtain ⟨hi, hd'⟩ := List.getElem?_eq_some_iff.1 hd
  have hlen : f.vars.length = f.dims.length := by simp [Fac.vars]
  have hv : f.vars[i]'(by omega) = d.var := by simp [Fac.vars, hd']
  rw [Fac.dens, elimDim_vars, elimDim_call hd (by rw [List.length_map, List.length_eraseIdx_of_lt (by omega)]; omega)
    (by
      intro h
      have := congrArg List.length h
      rw [List.length_map, List.length_eraseIdx_of_lt (by omega)] at this
      simp at this
      omega)]
  refine integral_congr_ae (Filter.Eventually.of_forall fun x => ?_)
  change f.call _ = f.call _
  congr 1
  have e1 : f.vars = f.vars.take i ++ d.var :: f.vars.drop (i + 1) := by
    rw [← hv, List.getElem_cons_drop, List.take_append_drop]
  have hk : (f.vars.take i).length = i := by simp; omega
  have e2 : f.vars.eraseIdx i = f.vars.take i ++ f.vars.drop (i + 1) := List.eraseIdx_eq_take_drop_succ ..
  have hnd := hn
  rw [e1, List.nodup_middle] at hnd
  have hnot := (List.nodup_cons.1 hnd).1
  have e3 : ∀ w ∈ f.vars.take i ++ f.vars.drop (i + 1), update σ d.var x w = σ w := by
    intro w hw
    rw [update_of_ne]
    rintro rfl
    exact hnot hw
  rw [e2]
  conv_rhs => rw [e1]
  rw [List.map_append, List.map_append, List.map_cons, update_self, List.take_append_of_le_length (by simp; omega),
    List.drop_append_of_le_length (by simp; omega), List.take_of_length_le (by simp), List.drop_of_length_le (by simp), List.nil_append]
  rw [List.map_congr_left (fun w hw => e3 w (by simp [hw])), List.map_congr_left (l := f.vars.drop (i + 1)) (fun w hw => e3 w (by simp [hw]))]

/-- elimination is integration over the real line -/
theorem elimRev_dens (vs : List V) : ∀ f : Fac V ℝ, f.vars.Nodup → (∀ v ∈ vs, v ∈ f.vars) →
      vs.Pairwise (fun a b => f.vars.idxOf b < f.vars.idxOf a) →
      ∃ g, elimRev rangeIntegral f (vs.map f.vars.idxOf) = .ok g ∧ g.vars = f.vars.filter (fun v => decide (v ∉ vs)) ∧
        (vs ≠ [] → g.vars = [] → ∃ c, g = Fac.ofConst c) ∧
        ∀ σ, g.dens σ = integ overR vs f.dens σ := by
  induction vs with
  | nil =>
    intro f _ _ _
    exact ⟨f, rfl, by simp, fun h => absurd rfl h, fun σ => rfl⟩
  | cons v vs ih =>
    intro f hn hmem hp
    have hlen : f.vars.length = f.dims.length := by simp [Fac.vars]
    have hv := hmem v (by simp)
    have hlt : f.vars.idxOf v < f.dims.length := by rw [← hlen]; exact List.idxOf_lt_length_of_mem hv
    obtain ⟨p1, p2⟩ := List.pairwise_cons.1 hp
    rw [List.map_cons, elimRev, if_neg (by
      rw [not_not]
      intro i hi
      obtain ⟨w, hw, rfl⟩ : ∃ w ∈ v :: vs, f.vars.idxOf w = i := by
        rcases List.mem_cons.1 hi with h | h
        · exact ⟨v, by simp, h.symm⟩
        · obtain ⟨w, hw, e⟩ := List.mem_map.1 h
          exact ⟨w, by simp [hw], e⟩
      rw [← hlen]
      exact List.idxOf_lt_length_of_mem (hmem w hw))]
    obtain ⟨d, hd⟩ : ∃ d, f.dims[f.vars.idxOf v]? = some d := ⟨_, List.getElem?_eq_getElem hlt⟩
    have hdv : d.var = v := by
      have h : f.vars[f.vars.idxOf v]? = some d.var := by rw [Fac.vars, List.getElem?_map]; change (f.dims[f.vars.idxOf v]?).map _ = _; rw [hd]; rfl
      rw [List.getElem?_eq_getElem (by omega), List.getElem_idxOf] at h
      exact (Option.some.inj h).symm
    rw [hd]
    simp only
    split_ifs with h1
    · obtain ⟨u, hu⟩ := List.length_eq_one_iff.1 (hlen.trans h1)
      have hvs : vs = [] := by
        rw [List.eq_nil_iff_forall_not_mem]
        intro w hw
        have h2 := p1 w hw
        have h3 := hmem w (by simp [hw])
        rw [hu, List.mem_singleton] at h3 hv
        rw [h3, hv] at h2
        exact lt_irrefl _ h2
      subst hvs
      rw [hu, List.mem_singleton] at hv
      subst hv
      refine ⟨_, rfl, ?_, fun _ _ => ⟨_, rfl⟩, fun σ => ?_⟩
      · rw [hu]
        simp [Fac.vars, Fac.ofConst]
      · rw [Fac.dens, Fac.call]
        have e0 : (Fac.ofConst (rangeIntegral d fun x => f.call [x])).vars = ([] : List V) := rfl
        rw [e0, List.map_nil, if_pos rfl]
        change (rangeIntegral d fun x => f.call [x]) = ∫ x, f.dens (update σ v x)
        have e1 : ∀ x, f.dens (update σ v x) = f.call [x] := by
          intro x
          rw [Fac.dens, hu]
          simp
        simp only [e1]
        refine setIntegral_eq_integral_of_forall_compl_eq_zero fun x hx => call_out (by simp) ?_
        rw [show [x] = ([] : List ℝ).take (f.vars.idxOf v) ++ x :: ([] : List ℝ).drop (f.vars.idxOf v) by simp, mask_insert hd (by simpa using h1.symm),
          Bool.and_eq_false_iff]
        right
        rw [Bool.eq_false_iff]
        exact fun hc => hx (inside_iff.1 hc)
    · have he : (NDim.elimDim rangeIntegral f (f.vars.idxOf v) d).vars = f.vars.erase v := by
        rw [elimDim_vars, List.erase_eq_eraseIdx_of_idxOf rfl]
      have hsub : ∀ w ∈ vs, w ∈ f.vars.erase v := by
        intro w hw
        refine (List.mem_erase_of_ne ?_).2 (hmem w (by simp [hw]))
        rintro rfl
        exact lt_irrefl _ (p1 _ hw)
      have hidx : ∀ w ∈ vs, (f.vars.erase v).idxOf w = f.vars.idxOf w := fun w hw => idxOf_erase_of_lt (p1 w hw)
      obtain ⟨g, g1, g3, g4, g5⟩ := ih (NDim.elimDim rangeIntegral f (f.vars.idxOf v) d) (by rw [he]; exact hn.erase v) (by rw [he]; exact hsub)
        (by
          rw [he]
          refine p2.imp_of_mem fun {a b} ha hb hab => ?_
          rw [hidx a ha, hidx b hb]
          exact hab)
      refine ⟨g, ?_, ?_, fun _ hg => g4 ?_ hg, fun σ => ?_⟩
      · rw [← g1, he]
        congr 1
        refine List.map_congr_left fun w hw => (hidx w hw).symm
      · rw [g3, he, hn.erase_eq_filter, List.filter_filter]
        refine List.filter_congr fun w _ => ?_
        by_cases h1 : w = v <;> by_cases h2 : w ∈ vs <;> simp [h1, h2]
      · rintro rfl
        rw [g3, he] at hg
        simp only [List.not_mem_nil, not_false_eq_true, decide_true, List.filter_true] at hg
        have := congrArg List.length hg
        rw [List.length_erase_of_mem hv, List.length_nil] at this
        omega
      · rw [g5, integ]
        refine integ_congr (fun τ => ?_) σ
        rw [elimDim_dens hn hd h1, hdv]
        rfl

theorem elim_dens {f : Fac V ℝ} (hn : f.vars.Nodup) {vs : List V} (hs : vs.Sublist f.vars) :
    ∃ g, eliminateIdx rangeIntegral f (vs.map f.vars.idxOf) none none = .ok g ∧ g.vars = f.vars.filter (fun v => decide (v ∉ vs)) ∧
        (vs ≠ [] → g.vars = [] → ∃ c, g = Fac.ofConst c) ∧ ∀ σ, g.dens σ = integ overR vs.reverse f.dens σ := by
  obtain ⟨g, g1, g2, g3, g4⟩ := elimRev_dens vs.reverse f hn (fun v hv => hs.subset (by simpa using hv))
    (by rw [List.pairwise_reverse]; exact idxOf_sublist hn hs)
  refine ⟨g, ?_, by simpa using g2, by simpa using g3, g4⟩
  rw [eliminateIdx, ← List.map_reverse]
  exact g1

theorem overR_homogeneous : Homogeneous (overR (V := V)) := by
  intro v c g
  exact integral_const_mul c g

/-- the constructor of a conditional density, and its values -/
theorem conditional_ok {f : Fac V ℝ} (hn : f.vars.Nodup) {vs : List V} (hs : ∀ v ∈ vs, v ∈ f.vars) (hvs : vs.Nodup) :
    ∃ m, conditional rangeIntegral f vs none = .ok ⟨f, vs.map f.vars.idxOf, m⟩ ∧ m.vars = f.vars.filter (fun v => decide (v ∈ vs)) ∧
      eliminateVars rangeIntegral f (f.vars.filter fun v => decide (v ∉ vs)) = .ok m ∧
      (∀ σ, m.dens σ = integ overR (f.vars.filter fun v => decide (v ∉ vs)).reverse f.dens σ) ∧
      ∀ σ, (CondFac.mk f (vs.map f.vars.idxOf) m).call (f.vars.map σ) = .ok (f.dens σ / m.call (vs.map σ)) := by
  have hlen : f.vars.length = f.dims.length := by simp [Fac.vars]
  obtain ⟨m, m1, m2, -, m4⟩ := elim_dens hn (List.filter_sublist (l := f.vars) (p := fun v => decide (v ∉ vs)))
  have mv : m.vars = f.vars.filter fun v => decide (v ∈ vs) := by
    rw [m2]
    refine List.filter_congr fun v hv => ?_
    simp [hv]
  refine ⟨m, ?_, mv, ?_, m4, fun σ => ?_⟩
  · rw [conditional, Product.prepareVar_ok hs]
    change mkCond rangeIntegral f (vs.map f.vars.idxOf) none = _
    rw [mkCond, ← hlen, others_eq hn hs, m1]
    rfl
  · rw [eliminateVars, Product.prepareVar_ok fun v hv => (List.mem_filter.1 hv).1]
    exact m1
  · rw [CondFac.call]
    simp only
    rw [Product.pick_ok hs σ]
    change (if (vs.map σ).length ≠ m.dims.length then _ else _) = _
    rw [if_neg]
    · rfl
    · rw [not_not, List.length_map]
      have h1 : m.dims.length = m.vars.length := by simp [Fac.vars]
      rw [h1, mv]
      refine (List.Perm.length_eq ?_).symm
      rw [List.perm_ext_iff_of_nodup (hn.filter _) hvs]
      intro v
      simp only [List.mem_filter, decide_eq_true_eq]
      exact ⟨fun h => h.2, fun h => ⟨hs v h, h⟩⟩

theorem dens_extend {f : Fac V ℝ} {n : ℕ} {v : Fin n → V} (hv : f.vars = List.ofFn v) (hi : Injective v) (x : Fin n → ℝ) :
    f.dens (extend v x 0) = f.call (List.ofFn x) := by
  rw [Fac.dens, hv, List.map_ofFn]
  congr 2
  funext i
  exact hi.extend_apply ..

theorem integ_congr_on {I : V → (ℝ → ℝ) → ℝ} : ∀ (vs : List V) {F G : (V → ℝ) → ℝ} {σ : V → ℝ},
    (∀ τ, (∀ w, w ∉ vs → τ w = σ w) → F τ = G τ) → integ I vs F σ = integ I vs G σ
  | [], F, G, σ, h => h σ fun _ _ => rfl
  | v :: vs, F, G, σ, h => by
    rw [integ, integ]
    refine integ_congr_on vs fun τ hτ => ?_
    congr 1
    funext x
    refine h _ fun w hw => ?_
    rw [List.mem_cons, not_or] at hw
    rw [update_of_ne hw.1, hτ w hw.2]

/-- the marginal density is positive almost surely -/
theorem IsJoint.ae_ne {m : Fac V ℝ} {P : Measure Ω} {X : V → Ω → ℝ} (hX : ∀ v, Measurable (X v)) (hm : IsJoint m P X) :
    ∀ᵐ ω ∂P, m.dens (fun u => X u ω) ≠ 0 := by
  obtain ⟨k, w, hw, mw, m0, ml⟩ := hm
  have h1 : ∀ᵐ y ∂(P.map fun ω i => X (w i) ω), m.call (List.ofFn y) ≠ 0 := by
    rw [ml, ae_withDensity_iff mw.ennreal_ofReal]
    refine Filter.Eventually.of_forall fun y hy h => hy ?_
    rw [h]
    simp
  have h2 := ae_of_ae_map (measurable_pi_lambda _ fun i => hX (w i)).aemeasurable h1
  filter_upwards [h2] with ω h
  rwa [Fac.dens, hw, List.map_ofFn]

/-- a joint density divided by a marginal density -/
theorem isCond_div {f m : Fac V ℝ} {P : Measure Ω} {X : V → Ω → ℝ} (hX : ∀ v, Measurable (X v)) (hf : IsJoint f P X) (hm : IsJoint m P X)
    (hn : f.vars.Nodup) (hsub : ∀ v ∈ m.vars, v ∈ f.vars) {rest : List V} (hr : ∀ v ∈ rest, v ∉ m.vars)
    (hi : ∀ σ, m.dens σ = integ overR rest f.dens σ) :
    IsCond (fun σ => f.dens σ / m.dens σ) f.vars rest m.vars P X m := by
  have hnn : ∀ {g : Fac V ℝ}, IsJoint g P X → ∀ σ, 0 ≤ g.dens σ := by
    rintro g ⟨k, w, hw, -, h0, -⟩ σ
    rw [Fac.dens, hw, List.map_ofFn]
    exact h0 _
  refine ⟨hm, rfl, fun σ => div_nonneg (hnn hf σ) (hnn hm σ), ?_, ?_⟩
  · intro n v hv
    have hinj : Injective v := by
      rw [hv] at hn
      exact List.nodup_ofFn.1 hn
    obtain ⟨n', v', hv', mf, -, lf⟩ := hf
    obtain rfl : n' = n := by
      have := congrArg List.length (hv'.symm.trans hv)
      simpa using this
    obtain rfl : v' = v := List.ofFn_injective (hv'.symm.trans hv)
    obtain ⟨k, w, hw, mw, m0, ml⟩ := id hm
    have hπ : ∀ i, ∃ j, v' j = w i := by
      intro i
      have h1 := hsub (w i) (by rw [hw]; simp [List.mem_ofFn])
      rw [hv', List.mem_ofFn] at h1
      exact h1
    choose π hπ using hπ
    have hd : ∀ x : Fin n' → ℝ, m.dens (extend v' x 0) = m.call (List.ofFn fun i => x (π i)) := by
      intro x
      rw [Fac.dens, hw, List.map_ofFn]
      congr 2
      funext i
      rw [comp_apply, ← hπ i, hinj.extend_apply]
    have hmeas : Measurable fun x : Fin n' → ℝ => m.dens (extend v' x 0) := by
      simp only [hd]
      exact mw.comp (measurable_pi_lambda _ fun i => measurable_pi_apply (π i))
    rw [lf]
    refine withDensity_congr_ae ?_
    have h1 : ∀ᵐ x ∂(P.map fun ω i => X (v' i) ω), m.dens (extend v' x 0) ≠ 0 := by
      rw [ae_map_iff (p := fun x => m.dens (extend v' x 0) ≠ 0) (measurable_pi_lambda _ fun i => hX (v' i)).aemeasurable
        (hmeas (measurableSet_singleton 0)).compl]
      filter_upwards [hm.ae_ne hX] with ω h
      rw [Fac.dens_congr (τ := fun u => X u ω)]
      · exact h
      · intro u hu
        have h2 := hsub u hu
        rw [hv', List.mem_ofFn] at h2
        obtain ⟨j, rfl⟩ := h2
        rw [hinj.extend_apply]
    rw [lf, ae_withDensity_iff mf.ennreal_ofReal] at h1
    filter_upwards [h1] with x hx
    rw [dens_extend hv' hinj]
    by_cases h0 : ENNReal.ofReal (f.call (List.ofFn x)) = 0
    · rw [h0]
      have h3 : f.call (List.ofFn x) ≤ 0 := ENNReal.ofReal_eq_zero.1 h0
      rw [ENNReal.ofReal_eq_zero.2]
      have h4 := hnn hm (extend v' x 0)
      exact mul_nonpos_of_nonpos_of_nonneg (div_nonpos_of_nonpos_of_nonneg h3 h4) h4
    · rw [div_mul_cancel₀ _ (hx h0)]
  · intro σ hσ
    have e1 : integ overR rest (fun σ => f.dens σ / m.dens σ) σ = integ overR rest (fun τ => (m.dens σ)⁻¹ * f.dens τ) σ := by
      refine integ_congr_on _ fun τ hτ => ?_
      rw [Fac.dens_congr (f := m) (σ := τ) (τ := σ) fun v hv => hτ v fun h => hr v h hv, div_eq_inv_mul]
    rw [e1, integ_mul overR_homogeneous, ← hi, inv_mul_cancel₀ hσ]

/-! ### values for conditions -/

/-- the value given for a variable -/
def look (c : List (V × ℝ)) (v : V) : Option ℝ := (c.find? fun p => decide (p.1 = v)).map Prod.snd

theorem override_eq (c : List (V × ℝ)) (σ : V → ℝ) (v : V) : override c σ v = (look c v).getD (σ v) := by
  rw [override, look]
  cases c.find? fun p => decide (p.1 = v) <;> rfl

theorem look_none {c : List (V × ℝ)} {v : V} : look c v = none ↔ v ∉ c.map Prod.fst := by
  rw [look, Option.map_eq_none_iff, List.find?_eq_none]
  simp only [decide_eq_true_eq, List.mem_map, not_exists, not_and]

theorem set_idxOf {β : Type} {vars : List V} (hn : vars.Nodup) {v : V} (hv : v ∈ vars) (c0 : V → β) (b : β) :
    (vars.map c0).set (vars.idxOf v) b = vars.map (update c0 v b) := by
  refine List.ext_getElem (by simp) fun j h1 h2 => ?_
  rw [List.getElem_set, List.getElem_map, List.getElem_map]
  rw [List.length_map] at h2
  by_cases e : vars.idxOf v = j
  · rw [if_pos e]
    subst e
    rw [List.getElem_idxOf, update_self]
  · rw [if_neg e, update_of_ne]
    intro h
    exact e (by rw [← h]; exact hn.idxOf_getElem j h2)

theorem foldl_set {vars : List V} (hn : vars.Nodup) : ∀ (c : List (V × ℝ)) (c0 : V → Option ℝ), (c.map Prod.fst).Nodup →
    (∀ p ∈ c, p.1 ∈ vars) →
    (c.map fun p => (vars.idxOf p.1, p.2)).foldl (fun arg p => arg.set p.1 (some p.2)) (vars.map c0) =
      vars.map fun v => (look c v).orElse fun _ => c0 v
  | [], c0, _, _ => by simp [look]
  | p :: c, c0, hc, hm => by
    rw [List.map_cons, List.nodup_cons] at hc
    rw [List.map_cons, List.foldl_cons, set_idxOf hn (hm p (by simp)), foldl_set hn c _ hc.2 fun q hq => hm q (by simp [hq])]
    refine List.map_congr_left fun v hv => ?_
    by_cases e : v = p.1
    · subst e
      rw [look_none.2 hc.1, look, List.find?_cons_of_pos (by simp)]
      simp
    · rw [update_of_ne e]
      congr 1
      rw [look, look, List.find?_cons_of_neg (by simpa using fun h => e h.symm)]

theorem given_eq {vars : List V} (hn : vars.Nodup) {vs : List V} {xs : List ℝ} (hvs : vs.Nodup) (hm : ∀ v ∈ vs, v ∈ vars)
    (hl : xs.length = vs.length) : given vars.length (vs.map vars.idxOf) xs = vars.map (look (vs.zip xs)) := by
  have e1 : (vs.zip xs).map Prod.fst = vs := List.map_fst_zip (by omega)
  have e2 : (vs.map vars.idxOf).zip xs = (vs.zip xs).map fun p => (vars.idxOf p.1, p.2) := by
    rw [List.zip_map_left]
    rfl
  have e3 : List.replicate vars.length none = vars.map fun _ => (none : Option ℝ) := by simp
  rw [given, e2, e3, foldl_set hn _ _ (by rw [e1]; exact hvs) fun p hp => hm _ (List.of_mem_zip hp).1]
  refine List.map_congr_left fun v _ => ?_
  cases look (vs.zip xs) v <;> rfl

theorem fill_eq (c : V → Option ℝ) (σ : V → ℝ) : ∀ vars : List V,
    fill (vars.map c) ((vars.filter fun v => decide (c v = none)).map σ) = vars.map fun v => (c v).getD (σ v)
  | [] => rfl
  | v :: vars => by
    cases h : c v with
    | none =>
      rw [List.filter_cons_of_pos (by simp [h]), List.map_cons, List.map_cons, List.map_cons, h, fill, fill_eq c σ vars]
      rfl
    | some x =>
      rw [List.filter_cons_of_neg (by simp [h]), List.map_cons, List.map_cons, h, fill, fill_eq c σ vars]
      rfl

theorem checkRanges_ok {f : Fac V ℝ} : ∀ (vs : List V) (xs : List ℝ), xs.length = vs.length → (∀ v ∈ vs, v ∈ f.vars) →
    (∀ p ∈ vs.zip xs, ∀ d ∈ f.dims, d.var = p.1 → d.a ≤ Ext.fin p.2 ∧ Ext.fin p.2 ≤ d.b) →
    checkRanges ((vs.map f.vars.idxOf).filterMap fun i => f.dims[i]?) xs = .ok ()
  | [], _, _, _, _ => rfl
  | v :: vs, [], h, _, _ => by simp at h
  | v :: vs, x :: xs, h, hm, hr => by
    have hv := hm v (by simp)
    have hlt : f.vars.idxOf v < f.dims.length := by
      have := List.idxOf_lt_length_of_mem hv
      rwa [Fac.vars, List.length_map] at this
    have hd : (f.dims[f.vars.idxOf v]).var = v := by
      have h1 := List.getElem_idxOf (List.idxOf_lt_length_of_mem hv)
      rw [← Option.some_inj, ← List.getElem?_eq_getElem, Fac.vars, List.getElem?_map] at h1
      change (f.dims[f.vars.idxOf v]?).map _ = _ at h1
      rw [List.getElem?_eq_getElem hlt] at h1
      exact Option.some.inj h1
    rw [List.map_cons, List.filterMap_cons, List.getElem?_eq_getElem hlt]
    simp only
    rw [checkRanges, if_pos]
    · exact checkRanges_ok vs xs (by simpa using h) (fun w hw => hm w (by simp [hw])) fun p hp => hr p (by simp [hp])
    · exact inside_iff.2 (hr (v, x) (by simp) _ (List.getElem_mem hlt) hd)

theorem dims_filterMap {f : Fac V ℝ} (hn : f.vars.Nodup) (p : V → Bool) :
    ((f.vars.filter p).map f.vars.idxOf).filterMap (fun i => f.dims[i]?) = f.dims.filter fun d => p d.var := by
  have h1 : f.dims.filter (fun d => p d.var) = (f.dims.filter fun d => p d.var).filterMap fun d => f.dims[f.vars.idxOf d.var]? := by
    have : ∀ d ∈ f.dims, f.dims[f.vars.idxOf d.var]? = some d := by
      intro d hd
      obtain ⟨i, hi, rfl⟩ := List.mem_iff_getElem.1 hd
      have h2 : f.vars[i]'(by simpa [Fac.vars] using hi) = (f.dims[i]).var := by simp [Fac.vars]
      rw [← h2, hn.idxOf_getElem, List.getElem?_eq_getElem hi]
    rw [List.filterMap_congr (g := some) fun d hd => this d (List.mem_filter.1 hd).1, List.filterMap_some]
  rw [h1, List.filterMap_map]
  conv_lhs => rw [Fac.vars, List.filter_map, List.filterMap_map]
  rfl

theorem override_update {c : List (V × ℝ)} {v : V} (h : v ∉ c.map Prod.fst) (σ : V → ℝ) (x : ℝ) :
    override c (update σ v x) = update (override c σ) v x := by
  funext w
  by_cases e : w = v
  · subst e
    rw [override_of_notMem h, update_self, update_self]
  · rw [update_of_ne e, override_eq, override_eq, update_of_ne e]

theorem integ_override {I : V → (ℝ → ℝ) → ℝ} {c : List (V × ℝ)} : ∀ (vs : List V) (F : (V → ℝ) → ℝ) (σ : V → ℝ),
    (∀ v ∈ vs, v ∉ c.map Prod.fst) → integ I vs F (override c σ) = integ I vs (fun τ => F (override c τ)) σ
  | [], _, _, _ => rfl
  | v :: vs, F, σ, h => by
    rw [integ, integ, integ_override vs _ σ fun w hw => h w (by simp [hw])]
    refine integ_congr (fun τ => ?_) σ
    congr 1
    funext x
    rw [override_update (h v (by simp))]

/-- conditioning on values -/
theorem conditionIdx_ok {f : Fac V ℝ} (hn : f.vars.Nodup) {vs : List V} {xs : List ℝ} (hvs : vs.Nodup) (hm : ∀ v ∈ vs, v ∈ f.vars)
    (hl : xs.length = vs.length) (hr : ∀ p ∈ vs.zip xs, ∀ d ∈ f.dims, d.var = p.1 → d.a ≤ Ext.fin p.2 ∧ Ext.fin p.2 ≤ d.b)
    (hne : f.vars.filter (fun v => decide (v ∉ vs)) ≠ []) :
    ∃ g, conditionIdx rangeIntegral f (vs.map f.vars.idxOf) xs = .ok g ∧ g.vars = f.vars.filter (fun v => decide (v ∉ vs)) ∧
      ∀ σ, g.dens σ = f.dens (override (vs.zip xs) σ) /
        integ overR (f.vars.filter fun v => decide (v ∉ vs)).reverse (fun τ => f.dens (override (vs.zip xs) τ)) σ := by
  have hlen : f.vars.length = f.dims.length := by simp [Fac.vars]
  have e1 : (vs.zip xs).map Prod.fst = vs := List.map_fst_zip (by omega)
  obtain ⟨U, hU⟩ : ∃ U : Fac V ℝ, U =
      { kind := .gen, dims := (others f.dims.length (vs.map f.vars.idxOf)).filterMap fun i => f.dims[i]?,
        fn := fun X => f.call (fill (given f.dims.length (vs.map f.vars.idxOf) xs) X), abs := false } := ⟨_, rfl⟩
  have hUd : U.dims = f.dims.filter fun d => decide (d.var ∉ vs) := by
    rw [hU, ← hlen, others_eq hn hm]
    exact dims_filterMap hn fun v => decide (v ∉ vs)
  have hUv : U.vars = f.vars.filter fun v => decide (v ∉ vs) := by
    rw [Fac.vars, hUd, Fac.vars, List.filter_map]
    rfl
  have hfn : ∀ σ, U.fn (U.vars.map σ) = f.dens (override (vs.zip xs) σ) := by
    intro σ
    have e2 : U.vars = f.vars.filter fun v => decide (look (vs.zip xs) v = none) := by
      rw [hUv]
      refine List.filter_congr fun v _ => ?_
      rw [decide_eq_decide, look_none, e1]
    rw [e2, hU]
    simp only
    rw [← hlen, given_eq hn hvs hm hl, fill_eq, Fac.dens]
    congr 1
    exact List.map_congr_left fun v _ => (override_eq _ _ _).symm
  have hout : ∀ σ, ¬ U.Inside σ → f.dens (override (vs.zip xs) σ) = 0 := by
    intro σ h
    refine Fac.dens_out fun h' => h fun d hd => ?_
    rw [hUd, List.mem_filter] at hd
    have h2 := h' d hd.1
    rwa [override_of_notMem (by rw [e1]; simpa using hd.2)] at h2
  have hUdens : ∀ σ, U.dens σ = f.dens (override (vs.zip xs) σ) := by
    intro σ
    by_cases h : U.Inside σ
    · rw [Fac.dens_in h, hfn]
      rw [hU]
      rfl
    · rw [Fac.dens_out h, hout σ h]
  have hUn : U.vars.Nodup := by rw [hUv]; exact hn.filter _
  obtain ⟨N, N1, N2, N3, N4⟩ := elim_dens hUn (List.Sublist.refl U.vars)
  obtain ⟨c, hc⟩ := N3 (by rw [hUv]; exact hne) (by
    rw [N2, List.filter_eq_nil_iff]
    intro v hv
    simp [hv])
  have hlenU : U.vars.length = U.dims.length := by simp [Fac.vars]
  refine ⟨{ U with fn := fun X => U.fn X / c }, ?_, hUv, fun σ => ?_⟩
  · rw [conditionIdx, checkRanges_ok vs xs hl hm hr]
    change (if _ then _ else _) = _
    rw [if_neg, if_neg (by simp [hl])]
    · have hN : eliminateIdx rangeIntegral U (List.range U.dims.length) none none = .ok (Fac.ofConst c) := by
        rw [← hlenU, ← map_idxOf_self hUn, N1, hc]
      clear N1 N2 N3 N4 hfn hout hUdens hUv hUd hUn hlenU
      subst hU
      simp only at hN ⊢
      rw [hN]
      rfl
    · rw [← hlen, others_eq hn hm, List.map_eq_nil_iff]
      exact hne
  · have hcs : c = integ overR U.vars.reverse U.dens σ := by
      rw [← N4, hc]
      rfl
    rw [← hUv, ← integ_congr hUdens, ← hcs]
    by_cases h : U.Inside σ
    · rw [Fac.dens_in (f := { U with fn := fun X => U.fn X / c }) h, ← hfn]
      rw [hU]
      rfl
    · rw [Fac.dens_out (f := { U with fn := fun X => U.fn X / c }) h, hout σ h, zero_div]

theorem varsAt_idxOf {vars vs : List V} (h : ∀ v ∈ vs, v ∈ vars) : varsAt vars (vs.map vars.idxOf) = vs := by
  rw [varsAt, List.filterMap_map]
  have : ∀ v ∈ vs, ((fun i => vars[i]?) ∘ vars.idxOf) v = some v := by
    intro v hv
    rw [comp_apply, List.getElem?_eq_getElem (List.idxOf_lt_length_of_mem (h v hv)), List.getElem_idxOf]
  rw [List.filterMap_congr (g := some) this, List.filterMap_some]

theorem mem_others {vars vs : List V} (hn : vars.Nodup) (h : ∀ v ∈ vs, v ∈ vars) {v : V} (hv : v ∈ vars) :
    vars.idxOf v ∈ others vars.length (vs.map vars.idxOf) ↔ v ∉ vs := by
  rw [others_eq hn h, List.mem_map]
  constructor
  · rintro ⟨w, hw, e⟩
    obtain ⟨w1, w2⟩ := List.mem_filter.1 hw
    rw [← (List.idxOf_inj w1).1 e]
    simpa using w2
  · intro h'
    exact ⟨v, List.mem_filter.2 ⟨hv, by simpa using h'⟩, rfl⟩

end Pacal.NDim
