import Verif.NDim.ElimLemmas

/-!
Lemmas on conditioning and substitution in products of factors.
-/

set_option linter.unusedSectionVars false

namespace Pacal.NDim
open Function
variable {V K : Type} [LinearOrder K] [Field K] [DecidableEq V]

/-! ### conditioning -/

theorem override_of_notMem {c : List (V × K)} {v : V} (h : v ∉ c.map Prod.fst) (σ : V → K) : override c σ v = σ v := by
  rw [override]
  split
  · rename_i p hp
    have h1 := List.mem_of_find?_eq_some hp
    have h2 := List.find?_some hp
    simp only [decide_eq_true_eq] at h2
    exact absurd (List.mem_map.2 ⟨p, h1, h2⟩) h
  · rfl

theorem override_of_mem {c : List (V × K)} (hc : (c.map Prod.fst).Nodup) {v : V} {x : K} (h : (v, x) ∈ c) (σ : V → K) :
    override c σ v = x := by
  rw [override]
  split
  · rename_i p hp
    have h1 := List.mem_of_find?_eq_some hp
    have h2 := List.find?_some hp
    simp only [decide_eq_true_eq] at h2
    have := List.inj_on_of_nodup_map hc h1 h h2
    rw [this]
  · rename_i hp
    have := List.find?_eq_none.1 hp _ h
    simp at this

namespace Product

theorem condArgs_eq (vars : List V) (v : V) (x : K) (σ : V → K) :
    condArgs vars v x ((vars.filter fun w => decide (w ≠ v)).map σ) = vars.map (update σ v x) := by
  induction vars with
  | nil => rfl
  | cons w vars ih =>
    by_cases h : w = v
    · rw [List.filter_cons_of_neg (by simp [h]), List.map_cons, h, update_self, ← ih, condArgs.eq_def]
      simp only [if_true]
    · rw [List.filter_cons_of_pos (by simp [h]), List.map_cons, List.map_cons, update_of_ne h, ← ih, condArgs.eq_def]
      simp only [if_neg h]

theorem filter_dims_vars (dims : List (Dim V K)) (v : V) :
    (dims.filter fun d => decide (d.var ≠ v)).map Dim.var = (dims.map Dim.var).filter fun w => decide (w ≠ v) := by
  rw [List.filter_map]
  rfl

/-- a conditioned factor has the value of the factor at the condition, up to a constant -/
theorem facCondition_ok {range : V → Ext K × Ext K} {f g : Fac V K} (hf : f.WF) {vs : List V} {xs : List K}
    (hk : f.kind = .gen) (h : facCondition range f vs xs = .ok g) :
    ∃ v x, vs = [v] ∧ xs = [x] ∧ v ∈ f.vars ∧ g.WF ∧ (∀ w, w ∈ g.vars ↔ w ∈ f.vars ∧ w ≠ v) ∧
      (g.vars = [] → g.kind ≠ .gen) ∧ ∃ k, ∀ σ, f.dens (update σ v x) = k * g.dens σ := by
  unfold facCondition at h
  rw [hk] at h
  dsimp only at h
  split at h
  · rename_i v x
    split_ifs at h with h1 h2 h3
    · cases h
      rw [List.all_eq_true] at h3
      simp only [decide_eq_true_eq] at h3
      refine ⟨v, x, rfl, rfl, h1, ofOne_wf, fun w => ?_, (fun _ h => by simp [Fac.ofOne] at h), f.dens fun _ => x, fun σ => ?_⟩
      · constructor
        · intro h
          simp [Fac.ofOne, Fac.vars] at h
        · rintro ⟨a, b⟩
          exact absurd (h3 w a) b
      · rw [dens_ofOne, mul_one]
        refine Fac.dens_congr fun w hw => ?_
        rw [h3 w hw, update_self]
    · cases h
      have hvars : ({ kind := .gen, dims := f.dims.filter fun d => decide (d.var ≠ v),
                      fn := fun X => f.call (condArgs f.vars v x X), abs := false } : Fac V K).vars =
          f.vars.filter fun w => decide (w ≠ v) := filter_dims_vars f.dims v
      have hmem : ∀ w, w ∈ f.vars.filter (fun w => decide (w ≠ v)) ↔ w ∈ f.vars ∧ w ≠ v := by
        intro w
        rw [List.mem_filter, decide_eq_true_eq]
      refine ⟨v, x, rfl, rfl, h1, ⟨?_, ?_, ?_⟩, fun w => ?_, fun hn => ?_, 1, fun σ => ?_⟩
      · rw [hvars]
        exact hf.nodup.filter _
      · intro h
        cases h
      · intro c h
        cases h
      · rw [hvars, hmem]
      · rw [hvars] at hn
        refine absurd ?_ h3
        rw [List.all_eq_true]
        intro w hw
        rw [decide_eq_true_eq]
        by_contra hne
        have := (hmem w).2 ⟨hw, hne⟩
        rw [hn] at this
        simp at this
      · rw [one_mul]
        by_cases hi : ({ kind := .gen, dims := f.dims.filter fun d => decide (d.var ≠ v),
                         fn := fun X => f.call (condArgs f.vars v x X), abs := false } : Fac V K).Inside σ
        · rw [Fac.dens_in hi, hvars]
          show _ = f.call (condArgs f.vars v x ((f.vars.filter fun w => decide (w ≠ v)).map σ))
          rw [condArgs_eq]
          rfl
        · rw [Fac.dens_out hi]
          refine Fac.dens_out fun hin => hi ?_
          intro d hd
          obtain ⟨hd1, hd2⟩ := List.mem_filter.1 hd
          rw [decide_eq_true_eq] at hd2
          have := hin d hd1
          rwa [update_of_ne hd2] at this
  · cases h

theorem gen_of_mem {f : Fac V K} (hf : f.WF) {v : V} (hv : v ∈ f.vars) : f.kind = .gen := by
  cases hk : f.kind with
  | gen => rfl
  | one => rw [Fac.vars, (hf.one hk).1] at hv; simp at hv
  | const c => rw [Fac.vars, (hf.const c hk).1] at hv; simp at hv

/-- all conditioned factors together -/
theorem condAll_ok {range : V → Ext K × Ext K} {c : List (V × K)} (hc : (c.map Prod.fst).Nodup) :
    ∀ (fs new : List (Fac V K)), (∀ f ∈ fs, f.WF) → (∀ f ∈ fs, ∃ v ∈ c.map Prod.fst, v ∈ f.vars) →
    fs.mapM (fun cf => facCondition range cf ((c.filter fun p => decide (p.1 ∈ cf.vars)).map Prod.fst)
      ((c.filter fun p => decide (p.1 ∈ cf.vars)).map Prod.snd)) = .ok new →
    (∀ g ∈ new, g.WF) ∧ ConstFree new ∧
    (∀ w, (∃ g ∈ new, w ∈ g.vars) ↔ (∃ f ∈ fs, w ∈ f.vars) ∧ w ∉ c.map Prod.fst) ∧
    ∃ k, ∀ σ, joint fs (override c σ) = k * joint new σ
  | [], new, _, _, h => by
    cases h
    exact ⟨by simp, fun f h => by simp at h, by simp, 1, fun σ => (one_mul _).symm⟩
  | f :: fs, new, hw, hv, h => by
    rw [List.mapM_cons] at h
    obtain ⟨g, hg, h⟩ := bind_ok.1 h
    obtain ⟨new', hn, h⟩ := bind_ok.1 h
    cases h
    obtain ⟨a, b, e, k, hk⟩ := condAll_ok hc fs new' (fun f hf => hw f (by simp [hf])) (fun f hf => hv f (by simp [hf])) hn
    have hfw := hw f (by simp)
    obtain ⟨v₀, hv₀, hvf₀⟩ := hv f (by simp)
    obtain ⟨v, x, h1, h2, h3, h4, h5, h6, k', h7⟩ := facCondition_ok hfw (gen_of_mem hfw hvf₀) hg
    have hpair : c.filter (fun p => decide (p.1 ∈ f.vars)) = [(v, x)] := by
      generalize c.filter (fun p => decide (p.1 ∈ f.vars)) = l at h1 h2
      cases l with
      | nil => simp at h1
      | cons p l =>
        cases l with
        | nil =>
          simp only [List.map_cons, List.map_nil, List.cons.injEq, and_true] at h1 h2
          rw [← h1, ← h2]
        | cons q l => simp at h1
    have hvx : (v, x) ∈ c := by
      have : (v, x) ∈ c.filter (fun p => decide (p.1 ∈ f.vars)) := by rw [hpair]; simp
      exact (List.mem_filter.1 this).1
    have honly : ∀ w ∈ f.vars, w ∈ c.map Prod.fst → w = v := by
      intro w hwf hwc
      obtain ⟨p, hp, rfl⟩ := List.mem_map.1 hwc
      have : p ∈ c.filter (fun p => decide (p.1 ∈ f.vars)) := List.mem_filter.2 ⟨hp, by simpa using hwf⟩
      rw [hpair, List.mem_singleton] at this
      rw [this]
    have hvc : v ∈ c.map Prod.fst := List.mem_map.2 ⟨_, hvx, rfl⟩
    have hov : ∀ σ, f.dens (override c σ) = f.dens (update σ v x) := by
      intro σ
      refine Fac.dens_congr fun w hwf => ?_
      by_cases hwv : w = v
      · rw [hwv, update_self, override_of_mem hc hvx]
      · rw [update_of_ne hwv, override_of_notMem fun hwc => hwv (honly w hwf hwc)]
    refine ⟨?_, ?_, fun w => ?_, k' * k, fun σ => ?_⟩
    · intro g' hg'
      rcases List.mem_cons.1 hg' with rfl | hg'
      · exact h4
      · exact a g' hg'
    · intro g' hg'
      rcases List.mem_cons.1 hg' with rfl | hg'
      · exact h6
      · exact b g' hg'
    · have hew := e w
      simp only [List.mem_cons, exists_eq_or_imp]
      rw [h5 w, hew]
      constructor
      · rintro (⟨p, q⟩ | ⟨p, q⟩)
        · exact ⟨Or.inl p, fun hwc => q (honly w p hwc)⟩
        · exact ⟨Or.inr p, q⟩
      · rintro ⟨p | p, q⟩
        · exact Or.inl ⟨p, fun e => q (e ▸ hvc)⟩
        · exact Or.inr ⟨p, q⟩
    · rw [joint_cons, joint_cons, hov, h7, hk]
      ring

theorem asConstant_ok {P : Product V K} (hP : P.WF) (hc : ConstFree P.factors) (hv : P.vars = []) (σ : V → K) :
    P.asConstant = .ok (joint P.factors σ) := by
  have hg : gens P.factors = [] := by
    rw [List.eq_nil_iff_forall_not_mem]
    intro f hf
    obtain ⟨h1, h2⟩ := mem_gens.1 hf
    refine hc f h1 ?_ h2
    rw [List.eq_nil_iff_forall_not_mem]
    intro w hw
    have := hP.sub f h1 w hw
    rw [hv] at this
    simp at this
  have hj := joint_optimize hP.fac σ
  have ho := optimize_eq P.factors
  rw [hg, List.nil_append] at ho
  rw [asConstant]
  split_ifs at ho with h1
  · rw [ho] at hj ⊢
    rw [joint_cons, joint_nil, mul_one, dens_ofConst] at hj
    show Except.ok _ = _
    rw [hj]
  · rw [ho] at hj ⊢
    rw [← hj]
    rfl

/-- the normalising constant -/
theorem nrm_ok {I : V → (K → K) → K} (hI : Homogeneous I) {marg : Fac V K → List V → Except NErr (Fac V K)}
    (hm : MargOk I marg) {sort : List V → List V} (hs : SortOk sort) {fuel : ℕ} {P : Product V K} (hP : P.WF)
    (hc : ConstFree P.factors) {r : Res V K} (hr : eliminate sort marg fuel P P.vars = .ok r) :
    ∃ order, order.Perm P.vars ∧ ∀ n, r.asConstant = .ok n → ∀ σ, n = integ I order (joint P.factors) σ := by
  obtain ⟨a, b, c, d, order, ho, e⟩ := eliminate_ok hI hm hs fuel P P.vars r hP hP.nodup hr
  refine ⟨order, ho, ?_⟩
  intro n hn σ
  rw [← e σ]
  cases r with
  | one => cases hn; rfl
  | prod R =>
    have hRv : R.vars = [] := by
      rw [List.eq_nil_iff_forall_not_mem]
      intro w hw
      have := (c w).1 hw
      exact this.2 this.1
    have hRw : R.WF := a
    rw [Res.asConstant, asConstant_ok hRw (d hc) hRv σ] at hn
    cases hn
    exact (hRw.dens_eq σ).symm

theorem wf_congr {P : Product V K} (hP : P.WF) {fs : List (Fac V K)} (hfs : ∀ f ∈ fs, f.WF)
    (hd : fs.flatMap Fac.dims = P.factors.flatMap Fac.dims) : ({ P with factors := fs } : Product V K).WF where
  nodup := hP.nodup
  fac := hfs
  mem v := by
    show v ∈ P.vars ↔ _
    rw [hP.mem, ← hd]
  box d hdm x := by
    have := hP.box d hdm x
    rw [← hd] at this
    exact this

theorem condition_ok {I : V → (K → K) → K} (hI : Homogeneous I) {marg : Fac V K → List V → Except NErr (Fac V K)}
    (hm : MargOk I marg) {sort : List V → List V} (hs : SortOk sort) {range : V → Ext K × Ext K} {P P' : Product V K}
    (hP : P.WF) (hPc : ConstFree P.factors) {Var : List V} {X : List K} (hn : Var.Nodup) (hl : X.length = Var.length)
    (h : P.condition sort marg range Var X = .ok P') :
    P'.WF ∧ (∀ v, v ∈ P'.vars ↔ v ∈ P.vars ∧ v ∉ Var) ∧ ∃ order, order.Perm P'.vars ∧
    ∀ σ, integ I order (fun τ => joint P.factors (override (Var.zip X) τ)) σ ≠ 0 →
      P'.dens σ = joint P.factors (override (Var.zip X) σ) /
        integ I order (fun τ => joint P.factors (override (Var.zip X) τ)) σ := by
  have hfst : (Var.zip X).map Prod.fst = Var := List.map_fst_zip (by omega)
  have hc : ((Var.zip X).map Prod.fst).Nodup := by rw [hfst]; exact hn
  rw [condition] at h
  split_ifs at h with h0
  dsimp only at h
  obtain ⟨new, hnew, h⟩ := bind_ok.1 h
  obtain ⟨cfp, hcfp, h⟩ := bind_ok.1 h
  obtain ⟨r, hr, h⟩ := bind_ok.1 h
  obtain ⟨n, hnn, h⟩ := bind_ok.1 h
  cases h
  have hkw : ∀ f ∈ (factorOut P.factors Var).1, f.WF := fun f hf => hP.fac f (kept_mem.1 hf).1
  obtain ⟨a, b, c, k, hk⟩ := condAll_ok hc (factorOut P.factors Var).2 new
    (fun f hf => hP.fac f (elim_mem.1 hf).1) (fun f hf => by rw [hfst]; exact (elim_mem.1 hf).2) hnew
  have hwf : ∀ f ∈ (factorOut P.factors Var).1 ++ new, f.WF := by
    intro f hf
    rcases List.mem_append.1 hf with h' | h'
    · exact hkw f h'
    · exact a f h'
  have hcf : ConstFree ((factorOut P.factors Var).1 ++ new) := by
    intro f hf
    rcases List.mem_append.1 hf with h' | h'
    · exact hPc f (kept_mem.1 h').1
    · exact b f h'
  obtain ⟨hQ, hQv, hQj⟩ := mk'_wf hs hwf hcfp
  have hJ : ∀ σ, joint P.factors (override (Var.zip X) σ) = k * joint cfp.factors σ := by
    intro σ
    rw [factorOut_joint P.factors Var, hk σ, hQj, joint_append,
      joint_congr (fs := (factorOut P.factors Var).1) (σ := override (Var.zip X) σ) (τ := σ)]
    · ring
    · intro f hf v hv
      refine override_of_notMem ?_ σ
      rw [hfst]
      exact fun hvV => (kept_mem.1 hf).2 v hvV hv
  obtain ⟨order, ho, hnrm⟩ := nrm_ok hI hm hs hQ (mk'_constFree hcf hcfp) hr
  have hnrm := hnrm n hnn
  have hw' : ∀ f ∈ cfp.factors ++ [Fac.ofConst (1 / if n = 0 then 1 else n)], f.WF := by
    intro f hf
    rcases List.mem_append.1 hf with h' | h'
    · exact hQ.fac f h'
    · rw [List.mem_singleton.1 h']
      exact ofConst_wf _
  have hP' : ({ cfp with factors := optimize (cfp.factors ++ [Fac.ofConst (1 / if n = 0 then 1 else n)]) } :
      Product V K).WF := by
    refine wf_congr hQ (optimize_wf hw') ?_
    rw [optimize_dims hw', List.flatMap_append]
    simp [Fac.ofConst]
  refine ⟨hP', fun v => ?_, order, ho, fun σ hσ => ?_⟩
  · show v ∈ cfp.vars ↔ _
    rw [hQv, hP.mem, mem_dims_iff]
    constructor
    · rintro ⟨f, hf, hv⟩
      rcases List.mem_append.1 hf with h' | h'
      · exact ⟨⟨f, (kept_mem.1 h').1, hv⟩, fun hvV => (kept_mem.1 h').2 v hvV hv⟩
      · obtain ⟨⟨f', hf', hv'⟩, hn'⟩ := (c v).1 ⟨f, h', hv⟩
        rw [hfst] at hn'
        exact ⟨⟨f', (elim_mem.1 hf').1, hv'⟩, hn'⟩
    · rintro ⟨⟨f, hf, hv⟩, hn'⟩
      by_cases hfV : ∃ w ∈ Var, w ∈ f.vars
      · obtain ⟨g, hg, hvg⟩ := (c v).2 ⟨⟨f, elim_mem.2 ⟨hf, hfV⟩, hv⟩, by rw [hfst]; exact hn'⟩
        exact ⟨g, List.mem_append_right _ hg, hvg⟩
      · push Not at hfV
        exact ⟨f, List.mem_append_left _ (kept_mem.2 ⟨hf, hfV⟩), hv⟩
  · have hint : integ I order (fun τ => joint P.factors (override (Var.zip X) τ)) σ = k * n := by
      rw [integ_congr hJ, integ_mul hI, ← hnrm σ]
    rw [hint] at hσ ⊢
    have hk0 : k ≠ 0 := left_ne_zero_of_mul hσ
    have hn0 : n ≠ 0 := right_ne_zero_of_mul hσ
    rw [hP'.dens_eq, hJ]
    show joint (optimize _) σ = _
    rw [joint_optimize hw', joint_append, joint_cons, joint_nil, mul_one, dens_ofConst, if_neg hn0]
    field_simp

end Product

/-! ### substitution -/

theorem varSubst_ok {sort : List V → List V} (hs : SortOk sort) {range : V → Ext K × Ext K} {f h : Fac V K}
    {v : V} {g : List K → K} {gvars : List V} (hr : varSubst sort range f v g gvars = .ok h) :
    v ∈ f.vars ∧ h.WF ∧ (∀ w, w ∈ h.vars ↔ w ∈ f.vars ∧ w ≠ v ∨ w ∈ gvars) ∧
    (∀ d ∈ h.dims, d.a = (range d.var).1 ∧ d.b = (range d.var).2) ∧
    ∀ σ, h.Inside σ → h.dens σ = f.dens (update σ v (g (gvars.map σ))) := by
  rw [varSubst] at hr
  split_ifs at hr with hv
  dsimp only at hr
  obtain ⟨nv, hnv⟩ : ∃ nv, nv = sort (f.vars.filter (fun w => decide (w ≠ v)) ++ gvars).dedup := ⟨_, rfl⟩
  rw [← hnv] at hr
  cases hr
  have hvars : ({ kind := .gen, dims := nv.map fun w => (⟨w, (range w).1, (range w).2⟩ : Dim V K),
                  fn := fun X => f.call (f.vars.map fun w => if w = v then g (gvars.map fun w => X.getD (nv.idxOf w) 0)
                    else X.getD (nv.idxOf w) 0), abs := false } : Fac V K).vars = nv := by
    show (nv.map fun w => (⟨w, (range w).1, (range w).2⟩ : Dim V K)).map Dim.var = nv
    rw [List.map_map]
    exact List.map_id _
  have hmem : ∀ w, w ∈ nv ↔ w ∈ f.vars ∧ w ≠ v ∨ w ∈ gvars := by
    intro w
    rw [hnv, (hs _).mem_iff, List.mem_dedup, List.mem_append, List.mem_filter, decide_eq_true_eq]
  have hat : ∀ σ : V → K, ∀ w ∈ nv, (nv.map σ).getD (nv.idxOf w) 0 = σ w := by
    intro σ w hw
    rw [List.getD_eq_getElem?_getD, List.getElem?_map, List.getElem?_eq_getElem (List.idxOf_lt_length_iff.2 hw),
      List.getElem_idxOf]
    rfl
  refine ⟨hv, ⟨?_, ?_, ?_⟩, fun w => ?_, ?_, ?_⟩
  · rw [hvars, hnv]
    exact (hs _).nodup_iff.2 (List.nodup_dedup _)
  · intro h
    cases h
  · intro c h
    cases h
  · rw [hvars, hmem]
  · intro d hd
    obtain ⟨w, -, rfl⟩ := List.mem_map.1 hd
    exact ⟨rfl, rfl⟩
  · intro σ hin
    rw [Fac.dens_in hin, hvars]
    show f.call _ = f.call _
    congr 1
    refine List.map_congr_left fun w hw => ?_
    by_cases hwv : w = v
    · rw [if_pos hwv, hwv, update_self]
      congr 1
      exact List.map_congr_left fun w' hw' => hat σ w' ((hmem w').2 (Or.inr hw'))
    · rw [if_neg hwv, update_of_ne hwv]
      exact hat σ w ((hmem w).2 (Or.inl ⟨hw, hwv⟩))

namespace Product

theorem substAll_ok {sort : List V → List V} (hs : SortOk sort) {range : V → Ext K × Ext K}
    {v : V} {g : List K → K} {gvars : List V} : ∀ (fs new : List (Fac V K)),
    fs.mapM (fun ef => varSubst sort range ef v g gvars) = .ok new →
    (∀ h ∈ new, h.WF ∧ ∀ d ∈ h.dims, d.a = (range d.var).1 ∧ d.b = (range d.var).2) ∧
    (∀ w, (∃ h ∈ new, w ∈ h.vars) ↔ ((∃ f ∈ fs, w ∈ f.vars) ∧ w ≠ v) ∨ fs ≠ [] ∧ w ∈ gvars) ∧
    ∀ σ, (∀ h ∈ new, h.Inside σ) → joint new σ = joint fs (update σ v (g (gvars.map σ)))
  | [], new, h => by
    cases h
    exact ⟨by simp, by simp, fun σ _ => rfl⟩
  | f :: fs, new, h => by
    rw [List.mapM_cons] at h
    obtain ⟨f', hf, h⟩ := bind_ok.1 h
    obtain ⟨new', hn, h⟩ := bind_ok.1 h
    cases h
    obtain ⟨a, b, c⟩ := substAll_ok hs fs new' hn
    obtain ⟨h1, h2, h3, h4, h5⟩ := varSubst_ok hs hf
    refine ⟨?_, fun w => ?_, fun σ hin => ?_⟩
    · intro h hh
      rcases List.mem_cons.1 hh with rfl | hh
      · exact ⟨h2, h4⟩
      · exact a h hh
    · simp only [List.mem_cons, exists_eq_or_imp]
      rw [h3 w, b w]
      constructor
      · rintro ((⟨p, q⟩ | p) | (⟨p, q⟩ | ⟨-, p⟩))
        · exact Or.inl ⟨Or.inl p, q⟩
        · exact Or.inr ⟨by simp, p⟩
        · exact Or.inl ⟨Or.inr p, q⟩
        · exact Or.inr ⟨by simp, p⟩
      · rintro (⟨p | p, q⟩ | ⟨-, p⟩)
        · exact Or.inl (Or.inl ⟨p, q⟩)
        · exact Or.inr (Or.inl ⟨p, q⟩)
        · exact Or.inl (Or.inr p)
    · rw [joint_cons, joint_cons, h5 σ (hin f' (by simp)), c σ fun h hh => hin h (by simp [hh])]

theorem varschange_ok {sort : List V → List V} (hs : SortOk sort) {range : V → Ext K × Ext K} {P P' : Product V K}
    (hP : P.WF) {v : V} {g : List K → K} {gvars : List V} {jac : Fac V K} (hj : jac.WF)
    (h : P.varschange sort range v g gvars jac = .ok P') :
    P'.WF ∧ (∀ w, w ∈ P'.vars ↔ w ∈ P.vars ∧ w ≠ v ∨ w ∈ gvars ∨ w ∈ jac.vars) ∧
    ∀ σ, (∀ w ∈ P'.vars, (range w).1 ≤ Ext.fin (σ w) ∧ Ext.fin (σ w) ≤ (range w).2) →
      P'.dens σ = joint P.factors (update σ v (g (gvars.map σ))) * jac.dens σ := by
  rw [varschange] at h
  split_ifs at h with h0
  dsimp only at h
  obtain ⟨new, hnew, h⟩ := bind_ok.1 h
  obtain ⟨a, b, c⟩ := substAll_ok hs _ _ hnew
  have hwf : ∀ f ∈ (factorOut P.factors [v]).1 ++ new ++ [jac], f.WF := by
    intro f hf
    rcases List.mem_append.1 hf with h' | h'
    · rcases List.mem_append.1 h' with h' | h'
      · exact hP.fac f (kept_mem.1 h').1
      · exact (a f h').1
    · rw [List.mem_singleton.1 h']
      exact hj
  obtain ⟨hQ, hQv, hQj⟩ := mk'_wf hs hwf h
  refine ⟨hQ, fun w => ?_, fun σ hσ => ?_⟩
  · have hne : (factorOut P.factors [v]).2 ≠ [] := by
      obtain ⟨f, hf, hfv⟩ := mem_dims_iff.1 ((hP.mem v).1 h0)
      exact List.ne_nil_of_mem (elim_mem.2 ⟨hf, v, by simp, hfv⟩)
    rw [hQv, hP.mem, mem_dims_iff]
    constructor
    · rintro ⟨f, hf, hw⟩
      rcases List.mem_append.1 hf with h' | h'
      · rcases List.mem_append.1 h' with h' | h'
        · refine Or.inl ⟨⟨f, (kept_mem.1 h').1, hw⟩, ?_⟩
          rintro rfl
          exact (kept_mem.1 h').2 w (by simp) hw
        · rcases (b w).1 ⟨f, h', hw⟩ with ⟨⟨f', hf', hw'⟩, hne'⟩ | ⟨-, h''⟩
          · exact Or.inl ⟨⟨f', (elim_mem.1 hf').1, hw'⟩, hne'⟩
          · exact Or.inr (Or.inl h'')
      · rw [List.mem_singleton.1 h'] at hw
        exact Or.inr (Or.inr hw)
    · rintro (⟨⟨f, hf, hw⟩, hne'⟩ | h' | h')
      · by_cases hvf : v ∈ f.vars
        · obtain ⟨f', hf', hw'⟩ := (b w).2 (Or.inl ⟨⟨f, elim_mem.2 ⟨hf, v, by simp, hvf⟩, hw⟩, hne'⟩)
          exact ⟨f', List.mem_append_left _ (List.mem_append_right _ hf'), hw'⟩
        · exact ⟨f, List.mem_append_left _ (List.mem_append_left _ (kept_mem.2 ⟨hf, by simpa using hvf⟩)), hw⟩
      · obtain ⟨f', hf', hw'⟩ := (b w).2 (Or.inr ⟨hne, h'⟩)
        exact ⟨f', List.mem_append_left _ (List.mem_append_right _ hf'), hw'⟩
      · exact ⟨jac, by simp, h'⟩
  · have hin : ∀ h ∈ new, h.Inside σ := by
      intro h hh d hd
      obtain ⟨-, hr⟩ := a h hh
      rw [(hr d hd).1, (hr d hd).2]
      refine hσ d.var ((hQv _).2 ⟨h, by simp [hh], List.mem_map.2 ⟨d, hd, rfl⟩⟩)
    rw [hQ.dens_eq, hQj, joint_append, joint_append, joint_cons, joint_nil, mul_one, c σ hin,
      factorOut_joint P.factors [v]]
    congr 2
    refine joint_congr fun f hf w hw => ?_
    rw [update_of_ne]
    rintro rfl
    exact (kept_mem.1 hf).2 w (by simp) hw

end Product
end Pacal.NDim
