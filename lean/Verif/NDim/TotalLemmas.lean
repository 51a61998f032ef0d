import Verif.NDim.CondLemmas

/-!
Eliminations and conditions succeed; the ideal elimination from one factor; factors that an elimination leaves alone.
-/

set_option linter.unusedSectionVars false

namespace Pacal.NDim
open Function
variable {V K : Type} [LinearOrder K] [Field K] [DecidableEq V]

namespace Product

theorem mk'_total (sort : List V → List V) {fs : List (Fac V K)} (h : fs ≠ []) : ∃ P, mk' sort fs = .ok P := by
  rw [mk', if_neg h]
  exact ⟨_, rfl⟩

theorem facEliminate_total {marg : Fac V K → List V → Except NErr (Fac V K)} (hm : MargTotal marg) {f : Fac V K}
    (hf : f.WF) {vs : List V} (hn : vs.Nodup) (hv : ∀ v ∈ vs, v ∈ f.vars) : ∃ g, facEliminate marg f vs = .ok g := by
  unfold facEliminate
  cases hk : f.kind with
  | one => exact ⟨_, rfl⟩
  | const c => exact ⟨_, rfl⟩
  | gen =>
    dsimp only
    rw [if_neg (by push Not; exact hv)]
    split_ifs with h
    · exact ⟨_, rfl⟩
    · exact hm f vs hf hk hn h hv

theorem elimFactors_total {marg : Fac V K → List V → Except NErr (Fac V K)} (hm : MargTotal marg)
    {sort : List V → List V} (hs : SortOk sort) {fs : List (Fac V K)} (hfs : ∀ f ∈ fs, f.WF) {v : V}
    (hv : ∀ f ∈ fs, v ∈ f.vars) : ∃ ef, elimFactors sort marg fs v = .ok ef := by
  unfold elimFactors
  split
  · exact ⟨_, rfl⟩
  · rename_i f
    obtain ⟨g, hg⟩ := facEliminate_total hm (hfs f (by simp)) (List.nodup_singleton v) (by simpa using hv f (by simp))
    rw [hg]
    exact ⟨_, rfl⟩
  · rename_i h0 h1
    cases fs with
    | nil => exact absurd rfl h0
    | cons f fs =>
      obtain ⟨Q, hQ⟩ := mk'_total sort (fs := f :: fs) (by simp)
      obtain ⟨hQw, hQv, -⟩ := mk'_wf hs hfs hQ
      obtain ⟨g, hg⟩ := facEliminate_total hm hQw.toFac_wf (List.nodup_singleton v) (by
        intro w hw
        rw [List.mem_singleton.1 hw]
        exact (hQv v).2 ⟨f, by simp, hv f (by simp)⟩)
      rw [hQ]
      show ∃ ef, (facEliminate marg Q.toFac [v] >>= fun g => .ok [g]) = .ok ef
      rw [hg]
      exact ⟨_, rfl⟩

theorem eliminate_total {I : V → (K → K) → K} (hI : Homogeneous I) {marg : Fac V K → List V → Except NErr (Fac V K)}
    (hm : MargOk I marg) (hmt : MargTotal marg) {sort : List V → List V} (hs : SortOk sort) :
    ∀ (fuel : ℕ) (P : Product V K) (Var : List V), P.WF → Var.Nodup → (∀ v ∈ Var, v ∈ P.vars) → Var.length ≤ fuel →
    ∃ r, eliminate sort marg fuel P Var = .ok r := by
  intro fuel
  induction fuel with
  | zero =>
    intro P Var hP hn hv hl
    rw [eliminate, if_pos (List.eq_nil_of_length_eq_zero (Nat.le_zero.1 hl))]
    exact ⟨_, rfl⟩
  | succ fuel ih =>
    intro P Var hP hn hv hl
    rw [eliminate]
    split_ifs with h0 h1
    · exact ⟨_, rfl⟩
    · obtain ⟨v, h2, h3⟩ := h1
      exact absurd (hv v h2) h3
    · dsimp only
      obtain ⟨i, hi⟩ : ∃ i, i = argmin (Var.map fun v => (P.factors.filter fun f => decide (v ∈ f.vars)).length) :=
        ⟨_, rfl⟩
      rw [← hi]
      have hlt : i < Var.length := by
        rw [hi]
        have := argmin_lt (Var.map fun v => (P.factors.filter fun f => decide (v ∈ f.vars)).length) (by simpa using h0)
        rwa [List.length_map] at this
      obtain ⟨v, hvi⟩ : ∃ v, Var[i] = v := ⟨_, rfl⟩
      have hget : Var[i]? = some v := by rw [List.getElem?_eq_getElem hlt, hvi]
      rw [hget]
      dsimp only
      have hvm : v ∈ Var := List.mem_of_getElem? hget
      have hvP : ∃ f ∈ P.factors, v ∈ f.vars := mem_dims_iff.1 ((hP.mem v).1 (hv v hvm))
      obtain ⟨ef, hef⟩ := elimFactors_total hmt hs (fs := (factorOut P.factors [v]).2)
        (fun f hf => hP.fac f (elim_mem.1 hf).1) (v := v) (fun f hf => by
          obtain ⟨-, w, hw, hwf⟩ := elim_mem.1 hf
          rw [List.mem_singleton] at hw
          rwa [hw] at hwf)
      obtain ⟨g, rfl, hg, hgc, hgv, -, hgj⟩ := round hI hm hs hP.fac hvP hef
      rw [hef]
      show ∃ r, (match optimize ((factorOut P.factors [v]).1 ++ [g]) with
        | [] => .ok .one
        | [f] => do
          let g ← facEliminate marg f (Var.eraseIdx i)
          let R ← mk' sort [g]
          .ok (.prod R)
        | fs => do
          let R ← mk' sort fs
          eliminate sort marg fuel R (Var.eraseIdx i) : Except NErr (Res V K)) = .ok r
      have hperm : (v :: Var.eraseIdx i).Perm Var := by
        rw [← hvi]
        exact List.getElem_cons_eraseIdx_perm hlt
      have hn' : (Var.eraseIdx i).Nodup := nodup_eraseIdx hn i
      have hnv : v ∉ Var.eraseIdx i := ((hperm.nodup_iff.2 hn).notMem)
      have hlen : (Var.eraseIdx i).length ≤ fuel := by
        rw [List.length_eraseIdx_of_lt hlt]
        omega
      obtain ⟨fs', hfs'⟩ : ∃ fs', fs' = (factorOut P.factors [v]).1 ++ [g] := ⟨_, rfl⟩
      rw [← hfs']
      have hw : ∀ f ∈ fs', f.WF := by
        intro f hf
        rw [hfs'] at hf
        rcases List.mem_append.1 hf with h' | h'
        · exact hP.fac f (kept_mem.1 h').1
        · rw [List.mem_singleton.1 h']
          exact hg
      have hsub : ∀ w ∈ Var.eraseIdx i, ∃ f ∈ optimize fs', w ∈ f.vars := by
        intro w hw'
        have hwV : w ∈ Var := hperm.mem_iff.1 (List.mem_cons_of_mem _ hw')
        have hne : w ≠ v := fun e => hnv (e ▸ hw')
        obtain ⟨f, hf, hwf⟩ := mem_dims_iff.1 ((hP.mem w).1 (hv w hwV))
        rw [← mem_dims_iff, optimize_dims hw, mem_dims_iff, hfs']
        by_cases hvf : v ∈ f.vars
        · exact ⟨g, by simp, (hgv w).2 ⟨⟨f, elim_mem.2 ⟨hf, v, by simp, hvf⟩, hwf⟩, hne⟩⟩
        · exact ⟨f, List.mem_append_left _ (kept_mem.2 ⟨hf, by simpa using hvf⟩), hwf⟩
      have hw2 := optimize_wf hw
      split
      · exact ⟨_, rfl⟩
      · rename_i f hf
        rw [hf] at hsub hw2
        obtain ⟨g', hg'⟩ := facEliminate_total hmt (hw2 f (by simp)) hn' (by
          intro w hw'
          obtain ⟨f', hf', hwf⟩ := hsub w hw'
          rw [List.mem_singleton.1 hf'] at hwf
          exact hwf)
        obtain ⟨R, hR⟩ := mk'_total sort (fs := [g']) (by simp)
        exact ⟨_, bind_ok.2 ⟨g', hg', bind_ok.2 ⟨R, hR, rfl⟩⟩⟩
      · rename_i h1 h2
        obtain ⟨R, hR⟩ := mk'_total sort (fs := optimize fs') h1
        obtain ⟨hRw, hRv, -⟩ := mk'_wf hs hw2 hR
        rw [hR]
        exact ih R _ hRw hn' (fun w hw' => (hRv w).2 (hsub w hw')) hlen

/-- one elimination touches only the factors with the variable -/
theorem eliminate_one {I : V → (K → K) → K} (hI : Homogeneous I) {marg : Fac V K → List V → Except NErr (Fac V K)}
    (hm : MargOk I marg) {sort : List V → List V} (hs : SortOk sort) {fuel : ℕ} {P R : Product V K} {v : V} (hP : P.WF)
    (h : eliminate sort marg fuel P [v] = .ok (.prod R)) :
    ∃ g, (∀ σ, g.dens σ = I v fun x => joint (P.factors.filter fun f => decide (v ∈ f.vars)) (update σ v x)) ∧
      gens R.factors = gens (P.factors.filter (fun f => decide (v ∉ f.vars)) ++ [g]) := by
  cases fuel with
  | zero => simp [eliminate] at h
  | succ fuel =>
    rw [eliminate] at h
    rw [if_neg (by simp)] at h
    by_cases h1 : ∃ w ∈ [v], w ∉ P.vars
    · rw [if_pos h1] at h
      cases h
    · rw [if_neg h1] at h
      push Not at h1
      have hvP : ∃ f ∈ P.factors, v ∈ f.vars := mem_dims_iff.1 ((hP.mem v).1 (h1 v (by simp)))
      have hk : (factorOut P.factors [v]).1 = P.factors.filter (fun f => decide (v ∉ f.vars)) := by simp [factorOut]
      have he : (factorOut P.factors [v]).2 = P.factors.filter (fun f => decide (v ∈ f.vars)) := by simp [factorOut]
      simp only [List.map_cons, List.map_nil, argmin, List.getElem?_cons_zero, List.eraseIdx_zero, List.tail_cons] at h
      obtain ⟨ef, hef, h⟩ := bind_ok.1 h
      obtain ⟨g, rfl, hg, hgc, hgv, hgd, hgj⟩ := round hI hm hs hP.fac hvP hef
      rw [he] at hgd
      refine ⟨g, hgd, ?_⟩
      rw [← hk]
      obtain ⟨fs', hfs'⟩ : ∃ fs', fs' = (factorOut P.factors [v]).1 ++ [g] := ⟨_, rfl⟩
      rw [← hfs'] at h ⊢
      have hgg : ∀ fs : List (Fac V K), gens (optimize fs) = gens fs := by
        intro fs
        rw [optimize_eq, gens, List.filter_append, ← gens, ← gens]
        have h1 : gens (gens fs) = gens fs := by simp [gens]
        rw [h1]
        split_ifs
        · simp [gens, Fac.ofConst]
        · simp [gens]
      split at h
      · cases h
      · rename_i f hf
        obtain ⟨g', hg', h⟩ := bind_ok.1 h
        obtain ⟨R', hR, h⟩ := bind_ok.1 h
        cases h
        have hg'' : g' = f := by
          unfold facEliminate at hg'
          split at hg'
          · cases hg'; rfl
          · cases hg'; rfl
          · rw [if_neg (by simp), if_pos rfl] at hg'
            cases hg'
            rfl
        obtain ⟨-, -, h2, -⟩ := mk'_ok hR
        rw [h2, hg'', ← hf, hgg, hgg]
      · obtain ⟨R', hR, h⟩ := bind_ok.1 h
        obtain ⟨-, -, h2, -⟩ := mk'_ok hR
        have : R = R' := by
          cases fuel with
          | zero => rw [eliminate, if_pos rfl] at h; cases h; rfl
          | succ fuel => rw [eliminate, if_pos rfl] at h; cases h; rfl
        rw [this, h2, hgg, hgg]

theorem condAll_total {range : V → Ext K × Ext K} {c : List (V × K)} (hc : (c.map Prod.fst).Nodup)
    (hr : ∀ p ∈ c, (range p.1).1 ≤ Ext.fin p.2 ∧ Ext.fin p.2 ≤ (range p.1).2) :
    ∀ (fs : List (Fac V K)), (∀ f ∈ fs, ∃ v ∈ c.map Prod.fst, v ∈ f.vars) →
    (∀ f ∈ fs, ∀ v ∈ c.map Prod.fst, ∀ w ∈ c.map Prod.fst, v ∈ f.vars → w ∈ f.vars → v = w) →
    ∃ new, fs.mapM (fun cf => facCondition range cf ((c.filter fun p => decide (p.1 ∈ cf.vars)).map Prod.fst)
      ((c.filter fun p => decide (p.1 ∈ cf.vars)).map Prod.snd)) = .ok new
  | [], _, _ => ⟨[], rfl⟩
  | f :: fs, h1, h2 => by
    obtain ⟨new, hn⟩ := condAll_total hc hr fs (fun f hf => h1 f (by simp [hf])) (fun f hf => h2 f (by simp [hf]))
    obtain ⟨v, hv, hvf⟩ := h1 f (by simp)
    obtain ⟨p, hp, hpv⟩ := List.mem_map.1 hv
    have hnd : (c.filter fun p => decide (p.1 ∈ f.vars)).Nodup := (List.Nodup.of_map _ hc).filter _
    have hpf : p ∈ c.filter fun p => decide (p.1 ∈ f.vars) := List.mem_filter.2 ⟨hp, by rw [hpv]; simpa using hvf⟩
    have hone : c.filter (fun p => decide (p.1 ∈ f.vars)) = [p] := by
      refine List.perm_singleton.1 ((List.perm_ext_iff_of_nodup hnd (List.nodup_singleton p)).2 fun q => ?_)
      rw [List.mem_singleton]
      constructor
      · intro hq
        obtain ⟨hq1, hq2⟩ := List.mem_filter.1 hq
        rw [decide_eq_true_eq] at hq2
        refine List.inj_on_of_nodup_map hc hq1 hp ?_
        exact h2 f (by simp) q.1 (List.mem_map.2 ⟨q, hq1, rfl⟩) p.1 (List.mem_map.2 ⟨p, hp, rfl⟩) hq2 (hpv ▸ hvf)
      · rintro rfl
        exact hpf
    have hf : ∃ g, facCondition range f [p.1] [p.2] = .ok g := by
      unfold facCondition
      split
      · exact ⟨_, rfl⟩
      · exact ⟨_, rfl⟩
      · dsimp only
        rw [if_neg (by rw [hpv]; simpa using hvf), if_neg (by rw [not_not]; exact hr p hp)]
        split_ifs
        · exact ⟨_, rfl⟩
        · exact ⟨_, rfl⟩
    obtain ⟨g, hg⟩ := hf
    refine ⟨g :: new, ?_⟩
    rw [List.mapM_cons, hone, List.map_singleton, List.map_singleton]
    exact bind_ok.2 ⟨g, hg, bind_ok.2 ⟨new, hn, rfl⟩⟩

theorem condition_total {I : V → (K → K) → K} (hI : Homogeneous I) {marg : Fac V K → List V → Except NErr (Fac V K)}
    (hm : MargOk I marg) (hmt : MargTotal marg) {sort : List V → List V} (hs : SortOk sort)
    {range : V → Ext K × Ext K} {P : Product V K} (hP : P.WF) (hPc : ConstFree P.factors) (hPn : P.factors ≠ [])
    {Var : List V} {X : List K} (hn : Var.Nodup) (hl : X.length = Var.length) (hv : ∀ v ∈ Var, v ∈ P.vars)
    (hr : ∀ p ∈ Var.zip X, (range p.1).1 ≤ Ext.fin p.2 ∧ Ext.fin p.2 ≤ (range p.1).2)
    (h1 : ∀ f ∈ P.factors, ∀ v ∈ Var, ∀ w ∈ Var, v ∈ f.vars → w ∈ f.vars → v = w) :
    ∃ P', P.condition sort marg range Var X = .ok P' := by
  have hfst : (Var.zip X).map Prod.fst = Var := List.map_fst_zip (by omega)
  have hc : ((Var.zip X).map Prod.fst).Nodup := by rw [hfst]; exact hn
  rw [condition, if_neg (by push Not; exact hv)]
  obtain ⟨new, hnew⟩ := condAll_total hc hr (factorOut P.factors Var).2
    (fun f hf => by rw [hfst]; exact (elim_mem.1 hf).2) (fun f hf => by rw [hfst]; exact h1 f (elim_mem.1 hf).1)
  have hnew' := hnew
  obtain ⟨a, b, c, k, hk⟩ := condAll_ok hc (factorOut P.factors Var).2 new
    (fun f hf => hP.fac f (elim_mem.1 hf).1) (fun f hf => by rw [hfst]; exact (elim_mem.1 hf).2) hnew
  have hwf : ∀ f ∈ (factorOut P.factors Var).1 ++ new, f.WF := by
    intro f hf
    rcases List.mem_append.1 hf with h' | h'
    · exact hP.fac f (kept_mem.1 h').1
    · exact a f h'
  have hcf : ConstFree ((factorOut P.factors Var).1 ++ new) := by
    intro f hf
    rcases List.mem_append.1 hf with h' | h'
    · exact hPc f (kept_mem.1 h').1
    · exact b f h'
  have hlen : new.length = (factorOut P.factors Var).2.length := by
    clear hk c b a hwf hcf hnew'
    generalize (factorOut P.factors Var).2 = fs at hnew
    induction fs generalizing new with
    | nil => cases hnew; rfl
    | cons f fs ih =>
      rw [List.mapM_cons] at hnew
      obtain ⟨g, hg, hnew⟩ := bind_ok.1 hnew
      obtain ⟨new', hn', hnew⟩ := bind_ok.1 hnew
      cases hnew
      rw [List.length_cons, List.length_cons, ih new' hn']
  have hne : (factorOut P.factors Var).1 ++ new ≠ [] := by
    intro h
    obtain ⟨h1, h2⟩ := List.append_eq_nil_iff.1 h
    rw [h2] at hlen
    obtain ⟨f, hf⟩ := List.exists_mem_of_ne_nil _ hPn
    by_cases hfV : ∃ w ∈ Var, w ∈ f.vars
    · have := List.ne_nil_of_mem (elim_mem.2 ⟨hf, hfV⟩)
      exact this (List.eq_nil_of_length_eq_zero hlen.symm)
    · push Not at hfV
      exact List.ne_nil_of_mem (kept_mem.2 ⟨hf, hfV⟩) h1
  obtain ⟨cfp, hcfp⟩ := mk'_total sort hne
  obtain ⟨hQ, hQv, hQj⟩ := mk'_wf hs hwf hcfp
  obtain ⟨r, hr'⟩ := eliminate_total hI hm hmt hs cfp.vars.length cfp cfp.vars hQ hQ.nodup (fun _ h => h) (le_refl _)
  obtain ⟨ra, -, rc, rd, -⟩ := eliminate_ok hI hm hs _ cfp cfp.vars r hQ hQ.nodup hr'
  have hra : ∃ n, r.asConstant = .ok n := by
    cases r with
    | one => exact ⟨1, rfl⟩
    | prod R =>
      refine ⟨_, asConstant_ok (P := R) ra (rd (mk'_constFree hcf hcfp)) ?_ (fun _ => 0)⟩
      rw [List.eq_nil_iff_forall_not_mem]
      intro w hw
      have := (rc w).1 hw
      exact this.2 this.1
  obtain ⟨n, hn'⟩ := hra
  refine ⟨_, bind_ok.2 ⟨new, hnew', bind_ok.2 ⟨cfp, hcfp, bind_ok.2 ⟨r, hr', bind_ok.2 ⟨n, hn', rfl⟩⟩⟩⟩⟩

end Product

/-! ### the ideal elimination from one factor -/

/-- assign coordinates to variables -/
def assign (vs : List V) (X : List K) (w : V) : K := X.getD (vs.idxOf w) 0

/-- the factor whose value is the integral -/
def margOf (I : V → (K → K) → K) (f : Fac V K) (vs : List V) : Except NErr (Fac V K) :=
  if ∀ w ∈ f.vars, w ∈ vs then .ok (Fac.ofConst (integ I vs f.dens fun _ => 0))
  else .ok { kind := .gen, dims := f.dims.filter fun d => decide (d.var ∉ vs),
             fn := fun X => integ I vs f.dens (assign (f.vars.filter fun w => decide (w ∉ vs)) X), abs := false }

theorem integ_dep (I : V → (K → K) → K) (S : List V) : ∀ (vs : List V) (F : (V → K) → K),
    (∀ σ τ, (∀ w ∈ S, σ w = τ w) → F σ = F τ) → ∀ σ τ, (∀ w ∈ S, w ∉ vs → σ w = τ w) → integ I vs F σ = integ I vs F τ
  | [], F, hF, σ, τ, h => hF σ τ fun w hw => h w hw (by simp)
  | v :: vs, F, hF, σ, τ, h => by
    by_cases hvv : v ∈ vs
    · refine integ_dep I S vs _ (fun σ τ h' => ?_) σ τ fun w hw hn => ?_
      · exact congrArg (I v) (funext fun x => hF _ _ fun w hw => by
          by_cases e : w = v
          · rw [e, update_self, update_self]
          · rw [update_of_ne e, update_of_ne e, h' w hw])
      · refine h w hw ?_
        rw [List.mem_cons]
        rintro (rfl | h)
        · exact hn hvv
        · exact hn h
    · -- the integrated function does not depend on `v`
      have hdep : ∀ σ τ : V → K, (∀ w ∈ S.filter (fun w => decide (w ≠ v)), σ w = τ w) →
          I v (fun x => F (update σ v x)) = I v (fun x => F (update τ v x)) := by
        intro σ τ h'
        refine congrArg (I v) (funext fun x => hF _ _ fun w hw => ?_)
        by_cases e : w = v
        · rw [e, update_self, update_self]
        · rw [update_of_ne e, update_of_ne e, h' w (List.mem_filter.2 ⟨hw, by simpa using e⟩)]
      refine integ_dep I (S.filter fun w => decide (w ≠ v)) vs _ hdep σ τ fun w hw hn => ?_
      obtain ⟨h1, h2⟩ := List.mem_filter.1 hw
      rw [decide_eq_true_eq] at h2
      exact h w h1 (by rw [List.mem_cons]; rintro (e | e); exacts [h2 e, hn e])

theorem integ_zero {I : V → (K → K) → K} (hI : Homogeneous I) : ∀ (vs : List V) (F : (V → K) → K)
    (σ : V → K), (∀ τ, (∀ w, w ∉ vs → τ w = σ w) → F τ = 0) → integ I vs F σ = 0
  | [], F, σ, h => h σ fun _ _ => rfl
  | v :: vs, F, σ, h => by
    refine integ_zero hI vs _ σ fun τ hτ => ?_
    have h0 : I v (fun _ => (0 : K) * 0) = 0 * I v (fun _ => 0) := hI v 0 fun _ => 0
    rw [zero_mul, zero_mul] at h0
    rw [← h0]
    refine congrArg (I v) (funext fun x => h _ fun w hw => ?_)
    rw [List.mem_cons, not_or] at hw
    rw [update_of_ne hw.1, hτ w hw.2]

theorem margOf_ok {I : V → (K → K) → K} (hI : Homogeneous I) : MargOk I (margOf I) := by
  intro f vs g hf hn hv h
  have hdep : ∀ σ τ : V → K, (∀ w ∈ f.vars, σ w = τ w) → f.dens σ = f.dens τ := fun σ τ h => Fac.dens_congr h
  rw [margOf] at h
  split_ifs at h with h0
  · cases h
    refine ⟨ofConst_wf _, fun v => ?_, (fun _ h => by simp [Fac.ofConst] at h), vs, List.Perm.refl _, fun σ => ?_⟩
    · constructor
      · intro h
        simp [Fac.ofConst, Fac.vars] at h
      · rintro ⟨h1, h2⟩
        exact absurd (h0 v h1) h2
    · rw [dens_ofConst]
      exact integ_dep I f.vars vs _ hdep _ _ fun w hw hn' => absurd (h0 w hw) hn'
  · cases h
    have hvars : ({ kind := .gen, dims := f.dims.filter fun d => decide (d.var ∉ vs),
                    fn := fun X => integ I vs f.dens (assign (f.vars.filter fun w => decide (w ∉ vs)) X),
                    abs := false } : Fac V K).vars = f.vars.filter fun w => decide (w ∉ vs) := by
      show (f.dims.filter fun d => decide (d.var ∉ vs)).map Dim.var = (f.dims.map Dim.var).filter _
      rw [List.filter_map]
      rfl
    have hmem : ∀ w, w ∈ f.vars.filter (fun w => decide (w ∉ vs)) ↔ w ∈ f.vars ∧ w ∉ vs := by
      intro w
      rw [List.mem_filter, decide_eq_true_eq]
    refine ⟨⟨?_, ?_, ?_⟩, fun w => ?_, fun hn' => ?_, vs, List.Perm.refl _, fun σ => ?_⟩
    · rw [hvars]
      exact hf.nodup.filter _
    · intro h
      cases h
    · intro c h
      cases h
    · rw [hvars, hmem]
    · rw [hvars] at hn'
      refine absurd (fun w hw => ?_) h0
      by_contra hne
      have := (hmem w).2 ⟨hw, hne⟩
      rw [hn'] at this
      simp at this
    · by_cases hi : ({ kind := .gen, dims := f.dims.filter fun d => decide (d.var ∉ vs),
                       fn := fun X => integ I vs f.dens (assign (f.vars.filter fun w => decide (w ∉ vs)) X),
                       abs := false } : Fac V K).Inside σ
      · rw [Fac.dens_in hi, hvars]
        show integ I vs f.dens (assign _ _) = _
        refine integ_dep I f.vars vs _ hdep _ _ fun w hw hn' => ?_
        have hw' := (hmem w).2 ⟨hw, hn'⟩
        rw [assign, List.getD_eq_getElem?_getD, List.getElem?_map,
          List.getElem?_eq_getElem (List.idxOf_lt_length_iff.2 hw'), List.getElem_idxOf]
        rfl
      · rw [Fac.dens_out hi]
        refine (integ_zero hI vs _ σ fun τ hτ => Fac.dens_out fun hin => hi ?_).symm
        intro d hd
        obtain ⟨hd1, hd2⟩ := List.mem_filter.1 hd
        rw [decide_eq_true_eq] at hd2
        have := hin d hd1
        rwa [hτ d.var hd2] at this

theorem margOf_total (I : V → (K → K) → K) : MargTotal (margOf I) := by
  intro f vs _ _ _ _ _
  rw [margOf]
  split_ifs
  · exact ⟨_, rfl⟩
  · exact ⟨_, rfl⟩

/-! ### masks -/

theorem mask_of_outside {dims : List (Dim V K)} {X : List K} (h : Outside dims X) : arrayMask dims X = false := by
  obtain ⟨i, d, x, hd, hx, hn⟩ := h
  rw [arrayMask_eq, Bool.eq_false_iff]
  intro ht
  rw [List.all_eq_true] at ht
  have hz : (List.zipWith Dim.inside dims X)[i]? = some (d.inside x) := by
    rw [List.getElem?_zipWith, hd, hx]
  exact hn (inside_iff.1 (ht _ (List.mem_of_getElem? hz)))

theorem mask_of_inside {dims : List (Dim V K)} {X : List K} (h : ¬ Outside dims X) : arrayMask dims X = true := by
  rw [arrayMask_eq, List.all_eq_true]
  intro b hb
  obtain ⟨i, hi⟩ := List.mem_iff_getElem?.1 hb
  rw [List.getElem?_zipWith] at hi
  cases hd : dims[i]? with
  | none => rw [hd] at hi; simp at hi
  | some d =>
    cases hx : X[i]? with
    | none => rw [hd, hx] at hi; simp at hi
    | some x =>
      rw [hd, hx] at hi
      simp only [Option.some.injEq] at hi
      rw [← hi]
      show d.inside x = true
      by_contra hn
      exact h ⟨i, d, x, hd, hx, fun h' => hn (inside_iff.2 h')⟩

theorem outside_ne_nil {dims : List (Dim V K)} {X : List K} (h : Outside dims X) : X ≠ [] := by
  rintro rfl
  obtain ⟨i, d, x, -, hx, -⟩ := h
  simp at hx

theorem scalarMask_true {dims : List (Dim V K)} {X : List K} (h : ¬ Outside dims X) : scalarMask dims X = true := by
  by_cases hz : List.zipWith Dim.inside dims X = []
  · rw [scalarMask, hz]
  · rw [scalarMask_eq hz, List.any_eq_true]
    have := mask_of_inside h
    rw [arrayMask_eq, List.all_eq_true] at this
    obtain ⟨b, hb⟩ := List.exists_mem_of_ne_nil _ hz
    exact ⟨b, hb, this b hb⟩

theorem scalarMask_one {dims : List (Dim V K)} {X : List K} (hd : dims.length ≤ 1) :
    scalarMask dims X = arrayMask dims X := by
  match dims, X with
  | [], X => rfl
  | [d], [] => rfl
  | [d], x :: X => rfl
  | _ :: _ :: _, _ => simp at hd

theorem outside_map {f : Fac V K} {σ : V → K} : Outside f.dims (f.vars.map σ) ↔ ¬ f.Inside σ := by
  rw [← Fac.mask_iff]
  constructor
  · intro h
    rw [mask_of_outside h]
    simp
  · intro h
    by_contra hn
    exact h (mask_of_inside hn)

end Pacal.NDim
