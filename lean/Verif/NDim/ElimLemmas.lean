import Verif.NDim.Lemmas

/-!
Lemmas on elimination, conditioning and substitution in products of factors.
-/

set_option linter.unusedSectionVars false

namespace Pacal.NDim
open Function
variable {V K : Type} [LinearOrder K] [Field K] [DecidableEq V]

/-! ### integrals -/

theorem integ_congr {I : V → (K → K) → K} {vs : List V} {F G : (V → K) → K} (h : ∀ σ, F σ = G σ) (σ : V → K) :
    integ I vs F σ = integ I vs G σ := by
  have : F = G := funext h
  rw [this]

theorem integ_mul {I : V → (K → K) → K} (hI : Homogeneous I) {vs : List V} {F : (V → K) → K} (c : K) (σ : V → K) :
    integ I vs (fun τ => c * F τ) σ = c * integ I vs F σ := by
  induction vs generalizing F with
  | nil => rfl
  | cons v vs ih =>
    rw [integ, integ, ← ih]
    exact integ_congr (fun τ => hI v c _) σ

/-- the order of integration does not matter if any two integrals can be exchanged -/
theorem integ_perm {I : V → (K → K) → K} (hc : Exchangeable I)
    {vs ws : List V} (h : vs.Perm ws) (F : (V → K) → K) (σ : V → K) : integ I vs F σ = integ I ws F σ := by
  induction h generalizing F with
  | nil => rfl
  | cons v _ ih => exact ih _
  | swap v w l =>
    show integ I l _ σ = integ I l _ σ
    refine integ_congr (fun τ => ?_) σ
    by_cases hvw : v = w
    · subst hvw
      rfl
    · have := hc v w hvw fun x y => F (update (update τ v x) w y)
      rw [this]
      refine congrArg (I w) (funext fun y => congrArg (I v) (funext fun x => ?_))
      rw [update_comm hvw]
  | trans _ _ ih1 ih2 => rw [ih1, ih2]

/-! ### elimination -/

namespace Product

theorem argmin_lt : ∀ (l : List ℕ), l ≠ [] → argmin l < l.length
  | [], h => absurd rfl h
  | [_], _ => by simp [argmin]
  | n :: m :: l, _ => by
    rw [argmin]
    split_ifs
    · simp
    · have := argmin_lt (m :: l) (by simp)
      simp only [List.length_cons] at this ⊢
      omega

theorem factorOut_joint (fs : List (Fac V K)) (vs : List V) (σ : V → K) :
    joint fs σ = joint (factorOut fs vs).1 σ * joint (factorOut fs vs).2 σ := by
  induction fs with
  | nil => simp [factorOut, joint]
  | cons f fs ih =>
    rw [joint_cons, ih]
    simp only [factorOut, List.filter_cons]
    by_cases h : ∃ v ∈ vs, v ∈ f.vars
    · rw [if_neg (by simpa using h), if_pos (by simpa using h), joint_cons]
      show _ = _
      ring
    · have h' := h
      push Not at h'
      rw [if_pos (by simpa using h'), if_neg (by simpa using h'), joint_cons]
      show _ = _
      ring

theorem kept_mem {fs : List (Fac V K)} {vs : List V} {f : Fac V K} :
    f ∈ (factorOut fs vs).1 ↔ f ∈ fs ∧ ∀ v ∈ vs, v ∉ f.vars := by
  rw [factorOut, List.mem_filter, decide_eq_true_eq]

theorem elim_mem {fs : List (Fac V K)} {vs : List V} {f : Fac V K} :
    f ∈ (factorOut fs vs).2 ↔ f ∈ fs ∧ ∃ v ∈ vs, v ∈ f.vars := by
  rw [factorOut, List.mem_filter, decide_eq_true_eq]

theorem facEliminate_ok {I : V → (K → K) → K} {marg : Fac V K → List V → Except NErr (Fac V K)} (hm : MargOk I marg)
    {f g : Fac V K} (hf : f.WF) {vs : List V} (hn : vs.Nodup) (hk : f.kind ≠ .gen → vs = [])
    (h : facEliminate marg f vs = .ok g) :
    g.WF ∧ (∀ v ∈ vs, v ∈ f.vars) ∧ (∀ v, v ∈ g.vars ↔ v ∈ f.vars ∧ v ∉ vs) ∧
    (vs ≠ [] → g.vars = [] → g.kind ≠ .gen) ∧
    ∃ order, order.Perm vs ∧ ∀ σ, g.dens σ = integ I order f.dens σ := by
  have hself : vs = [] → g = f → g.WF ∧ (∀ v ∈ vs, v ∈ f.vars) ∧ (∀ v, v ∈ g.vars ↔ v ∈ f.vars ∧ v ∉ vs) ∧
      (vs ≠ [] → g.vars = [] → g.kind ≠ .gen) ∧ ∃ order, order.Perm vs ∧ ∀ σ, g.dens σ = integ I order f.dens σ := by
    rintro rfl rfl
    exact ⟨hf, by simp, by simp, fun h => absurd rfl h, [], List.Perm.refl _, fun σ => rfl⟩
  rw [facEliminate] at h
  split at h
  · rename_i hk'
    exact hself (hk (by rw [hk']; simp)) (by cases h; rfl)
  · rename_i c hk'
    exact hself (hk (by rw [hk']; simp)) (by cases h; rfl)
  · split_ifs at h with h1 h2
    · exact hself h2 (by cases h; rfl)
    · push Not at h1
      obtain ⟨a, b, c, d⟩ := hm f vs g hf hn h1 h
      exact ⟨a, h1, b, fun _ => c, d⟩

/-- one round: the result is the integral over the eliminated variable -/
theorem round {I : V → (K → K) → K} (hI : Homogeneous I) {marg : Fac V K → List V → Except NErr (Fac V K)}
    (hm : MargOk I marg) {sort : List V → List V} (hs : SortOk sort) {fs : List (Fac V K)} (hfs : ∀ f ∈ fs, f.WF)
    {v : V} (hv : ∃ f ∈ fs, v ∈ f.vars) {ef : List (Fac V K)}
    (h : elimFactors sort marg (factorOut fs [v]).2 v = .ok ef) :
    ∃ g, ef = [g] ∧ g.WF ∧ (g.vars = [] → g.kind ≠ .gen) ∧
      (∀ w, w ∈ g.vars ↔ (∃ f ∈ (factorOut fs [v]).2, w ∈ f.vars) ∧ w ≠ v) ∧
      (∀ σ, g.dens σ = I v fun x => joint (factorOut fs [v]).2 (update σ v x)) ∧
      ∀ σ, joint ((factorOut fs [v]).1 ++ [g]) σ = I v fun x => joint fs (update σ v x) := by
  have key : ∀ g : Fac V K, (∀ σ, g.dens σ = I v fun x => joint (factorOut fs [v]).2 (update σ v x)) →
      ∀ σ, joint ((factorOut fs [v]).1 ++ [g]) σ = I v fun x => joint fs (update σ v x) := by
    intro g hg σ
    have h1 : ∀ x, joint fs (update σ v x) = joint (factorOut fs [v]).1 σ * joint (factorOut fs [v]).2 (update σ v x) := by
      intro x
      rw [factorOut_joint fs [v], joint_congr (σ := update σ v x) (τ := σ) (fs := (factorOut fs [v]).1)]
      intro f hf w hw
      refine update_of_ne ?_ _ _
      rintro rfl
      exact (kept_mem.1 hf).2 w (by simp) hw
    simp only [h1]
    rw [hI, joint_append, joint_cons, joint_nil, mul_one, hg]
  have hne : (factorOut fs [v]).2 ≠ [] := by
    obtain ⟨f, hf, hfv⟩ := hv
    exact List.ne_nil_of_mem (elim_mem.2 ⟨hf, v, by simp, hfv⟩)
  have hewf : ∀ f ∈ (factorOut fs [v]).2, f.WF := fun f hf => hfs f (elim_mem.1 hf).1
  have hev : ∀ f ∈ (factorOut fs [v]).2, v ∈ f.vars := by
    intro f hf
    obtain ⟨-, w, hw, hwf⟩ := elim_mem.1 hf
    rw [List.mem_singleton] at hw
    rwa [hw] at hwf
  have gen_of : ∀ f : Fac V K, f.WF → v ∈ f.vars → f.kind = .gen := by
    intro f hf hv
    cases hk : f.kind with
    | gen => rfl
    | one => rw [Fac.vars, (hf.one hk).1] at hv; simp at hv
    | const c => rw [Fac.vars, (hf.const c hk).1] at hv; simp at hv
  have perm1 : ∀ order : List V, order.Perm [v] → order = [v] := fun order h => List.perm_singleton.1 h
  unfold elimFactors at h
  split at h
  · rename_i h0
    exact absurd h0 hne
  · rename_i f hf
    obtain ⟨g, hg, h⟩ := bind_ok.1 h
    cases h
    have hfm : f ∈ (factorOut fs [v]).2 := by rw [hf]; simp
    have hfw := hewf f hfm
    obtain ⟨a, -, b, c, order, ho, d⟩ := facEliminate_ok hm hfw (List.nodup_singleton v)
      (fun h => absurd (gen_of f hfw (hev f hfm)) h) hg
    rw [perm1 order ho] at d
    have hd : ∀ σ, g.dens σ = I v fun x => joint (factorOut fs [v]).2 (update σ v x) := by
      intro σ
      rw [d σ, hf]
      show I v (fun x => f.dens (update σ v x)) = _
      refine congrArg (I v) (funext fun x => ?_)
      rw [joint_cons, joint_nil, mul_one]
    refine ⟨g, rfl, a, c (by simp), fun w => ?_, hd, key g hd⟩
    rw [b w, hf]
    simp
  · obtain ⟨Q, hQ, h⟩ := bind_ok.1 h
    obtain ⟨g, hg, h⟩ := bind_ok.1 h
    cases h
    obtain ⟨hQw, hQv, hQj⟩ := mk'_wf hs hewf hQ
    obtain ⟨a, hvQ, b, c, order, ho, d⟩ := facEliminate_ok hm hQw.toFac_wf (List.nodup_singleton v)
      (fun h => absurd rfl h) hg
    rw [perm1 order ho] at d
    have hd : ∀ σ, g.dens σ = I v fun x => joint (factorOut fs [v]).2 (update σ v x) := by
      intro σ
      rw [d σ]
      show I v (fun x => Q.toFac.dens (update σ v x)) = _
      refine congrArg (I v) (funext fun x => ?_)
      rw [← hQj]
      exact hQw.dens_eq _
    refine ⟨g, rfl, a, c (by simp), fun w => ?_, hd, key g hd⟩
    rw [b w]
    show w ∈ Q.vars ∧ _ ↔ _
    rw [hQv]
    simp

/-- well formed results -/
def Res.WF : Res V K → Prop
  | .one => True
  | .prod P => P.WF

/-- the result has no factors without variables other than constants -/
def Res.ConstFree : Res V K → Prop
  | .one => True
  | .prod P => NDim.ConstFree P.factors

theorem constFree_optimize {fs : List (Fac V K)} (h : ConstFree fs) : ConstFree (optimize fs) := by
  intro f hf
  rw [optimize_eq] at hf
  rcases List.mem_append.1 hf with h' | h'
  · exact h f (mem_gens.1 h').1
  · split_ifs at h'
    · rw [List.mem_singleton.1 h']
      intro _ h''
      cases h''
    · simp at h'

theorem mk'_constFree {sort : List V → List V} {fs : List (Fac V K)} (h : ConstFree fs) {P : Product V K}
    (hP : mk' sort fs = .ok P) : ConstFree P.factors := by
  obtain ⟨-, -, h2, -⟩ := mk'_ok hP
  rw [h2]
  exact constFree_optimize h

theorem nodup_eraseIdx {l : List V} (h : l.Nodup) (i : ℕ) : (l.eraseIdx i).Nodup :=
  h.sublist (List.eraseIdx_sublist l i)

theorem and_not_or {a b c : Prop} : (a ∧ ¬ b) ∧ ¬ c ↔ a ∧ ¬ (b ∨ c) :=
  ⟨fun h => ⟨h.1.1, fun h' => h'.elim h.1.2 h.2⟩, fun h => ⟨⟨h.1, fun h' => h.2 (Or.inl h')⟩, fun h' => h.2 (Or.inr h')⟩⟩

theorem eliminate_ok {I : V → (K → K) → K} (hI : Homogeneous I) {marg : Fac V K → List V → Except NErr (Fac V K)}
    (hm : MargOk I marg) {sort : List V → List V} (hs : SortOk sort) :
    ∀ (fuel : ℕ) (P : Product V K) (Var : List V) (r : Res V K), P.WF → Var.Nodup →
    eliminate sort marg fuel P Var = .ok r →
    r.WF ∧ (∀ v ∈ Var, v ∈ P.vars) ∧ (∀ v, v ∈ r.vars ↔ v ∈ P.vars ∧ v ∉ Var) ∧
    (ConstFree P.factors → r.ConstFree) ∧
    ∃ order, order.Perm Var ∧ ∀ σ, r.dens σ = integ I order (joint P.factors) σ := by
  intro fuel
  induction fuel with
  | zero =>
    intro P Var r hP hn h
    rw [eliminate] at h
    split_ifs at h with h0
    cases h
    subst h0
    exact ⟨hP, by simp, by simp [Res.vars], fun h => h, [], List.Perm.refl _, fun σ => hP.dens_eq σ⟩
  | succ fuel ih =>
    intro P Var r hP hn h
    rw [eliminate] at h
    split_ifs at h with h0 h1
    · cases h
      subst h0
      exact ⟨hP, by simp, by simp [Res.vars], fun h => h, [], List.Perm.refl _, fun σ => hP.dens_eq σ⟩
    · push Not at h1
      dsimp only at h
      split at h
      · cases h
      · rename_i v hv
        obtain ⟨i, hi⟩ : ∃ i, i = argmin (Var.map fun v => (P.factors.filter fun f => decide (v ∈ f.vars)).length) :=
          ⟨_, rfl⟩
        rw [← hi] at h hv
        obtain ⟨ef, hef, h⟩ := bind_ok.1 h
        have hvm : v ∈ Var := List.mem_of_getElem? hv
        have hvP : ∃ f ∈ P.factors, v ∈ f.vars := mem_dims_iff.1 ((hP.mem v).1 (h1 v hvm))
        obtain ⟨g, rfl, hg, hgc, hgv, -, hgj⟩ := round hI hm hs hP.fac hvP hef
        have hlt : i < Var.length := (List.getElem?_eq_some_iff.1 hv).1
        have hvi : Var[i] = v := (List.getElem?_eq_some_iff.1 hv).2
        have hperm : (v :: Var.eraseIdx i).Perm Var := by
          rw [← hvi]
          exact List.getElem_cons_eraseIdx_perm hlt
        have hn' : (Var.eraseIdx i).Nodup := nodup_eraseIdx hn i
        have hnv : v ∉ Var.eraseIdx i := ((hperm.nodup_iff.2 hn).notMem)
        have hmemV : ∀ w, w ∈ Var ↔ w = v ∨ w ∈ Var.eraseIdx i := fun w => by
          rw [← hperm.mem_iff, List.mem_cons]
        obtain ⟨fs', hfs'⟩ : ∃ fs', fs' = (factorOut P.factors [v]).1 ++ [g] := ⟨_, rfl⟩
        have hw : ∀ f ∈ fs', f.WF := by
          intro f hf
          rw [hfs'] at hf
          rcases List.mem_append.1 hf with h' | h'
          · exact hP.fac f (kept_mem.1 h').1
          · rw [List.mem_singleton.1 h']
            exact hg
        have hcf : ConstFree P.factors → ConstFree fs' := by
          intro hc f hf
          rw [hfs'] at hf
          rcases List.mem_append.1 hf with h' | h'
          · exact hc f (kept_mem.1 h').1
          · rw [List.mem_singleton.1 h']
            exact hgc
        have hvars : ∀ w, (∃ f ∈ fs', w ∈ f.vars) ↔ w ∈ P.vars ∧ w ≠ v := by
          intro w
          rw [hP.mem, mem_dims_iff, hfs']
          constructor
          · rintro ⟨f, hf, hwf⟩
            rcases List.mem_append.1 hf with h' | h'
            · refine ⟨⟨f, (kept_mem.1 h').1, hwf⟩, ?_⟩
              rintro rfl
              exact (kept_mem.1 h').2 w (by simp) hwf
            · rw [List.mem_singleton.1 h', hgv] at hwf
              obtain ⟨⟨f', hf', hwf'⟩, hne⟩ := hwf
              exact ⟨⟨f', (elim_mem.1 hf').1, hwf'⟩, hne⟩
          · rintro ⟨⟨f, hf, hwf⟩, hne⟩
            by_cases hvf : v ∈ f.vars
            · exact ⟨g, by simp, (hgv w).2 ⟨⟨f, elim_mem.2 ⟨hf, v, by simp, hvf⟩, hwf⟩, hne⟩⟩
            · exact ⟨f, List.mem_append_left _ (kept_mem.2 ⟨hf, by simpa using hvf⟩), hwf⟩
        have hvars' : ∀ w, (∃ f ∈ optimize fs', w ∈ f.vars) ↔ w ∈ P.vars ∧ w ≠ v := by
          intro w
          rw [← hvars, ← mem_dims_iff, optimize_dims hw, mem_dims_iff]
        have hsub : ∀ w ∈ Var.eraseIdx i, ∃ f ∈ optimize fs', w ∈ f.vars := fun w hw' =>
          (hvars' w).2 ⟨h1 w ((hmemV w).2 (Or.inr hw')), fun e => hnv (e ▸ hw')⟩
        have hfin : ∀ (order : List V) (σ : V → K),
            integ I order (joint (optimize fs')) σ = integ I (v :: order) (joint P.factors) σ := by
          intro order σ
          rw [integ]
          refine integ_congr (fun τ => ?_) σ
          rw [joint_optimize hw, hfs', hgj]
        have hall : ∀ v' ∈ Var, v' ∈ P.vars := h1
        rw [← hfs'] at h
        split at h
        · rename_i h2
          cases h
          have hVar : Var.eraseIdx i = [] := by
            rw [List.eq_nil_iff_forall_not_mem]
            intro w hw'
            obtain ⟨f, hf, -⟩ := hsub w hw'
            rw [h2] at hf
            simp at hf
          refine ⟨trivial, hall, fun w => ?_, fun _ => trivial, [v], ?_, fun σ => ?_⟩
          · refine ⟨fun h => by simp [Res.vars] at h, fun ⟨ha, hb⟩ => ?_⟩
            obtain ⟨f, hf, -⟩ := (hvars' w).2 ⟨ha, fun e => hb ((hmemV w).2 (Or.inl e))⟩
            rw [h2] at hf
            simp at hf
          · rw [← hVar]
            exact hperm
          · rw [← hfin [] σ, h2]
            rfl
        · rename_i f h2
          obtain ⟨g', hg', h⟩ := bind_ok.1 h
          obtain ⟨R, hR, h⟩ := bind_ok.1 h
          cases h
          have hfw : f.WF := optimize_wf hw f (by rw [h2]; simp)
          have hkn : f.kind ≠ .gen → Var.eraseIdx i = [] := by
            intro hk
            rw [List.eq_nil_iff_forall_not_mem]
            intro w hw'
            obtain ⟨f', hf', hwf⟩ := hsub w hw'
            rw [h2, List.mem_singleton] at hf'
            rw [hf'] at hwf
            cases hk' : f.kind with
            | gen => exact hk hk'
            | one => rw [Fac.vars, (hfw.one hk').1] at hwf; simp at hwf
            | const c => rw [Fac.vars, (hfw.const c hk').1] at hwf; simp at hwf
          obtain ⟨a, b, c, e, order, ho, d⟩ := facEliminate_ok hm hfw hn' hkn hg'
          have hgw : ∀ f ∈ [g'], f.WF := fun f hf => by rw [List.mem_singleton.1 hf]; exact a
          obtain ⟨hRw, hRv, hRj⟩ := mk'_wf hs hgw hR
          refine ⟨hRw, hall, fun w => ?_, fun hc => ?_, v :: order, ?_, fun σ => ?_⟩
          · show w ∈ R.vars ↔ _
            rw [hRv]
            have := hvars' w
            rw [h2] at this
            simp only [List.mem_singleton, exists_eq_left] at this ⊢
            rw [c w, this, hmemV]
            exact and_not_or
          · refine mk'_constFree (fs := [g']) ?_ hR
            intro f' hf'
            rw [List.mem_singleton.1 hf']
            by_cases hVn : Var.eraseIdx i = []
            · have hgf : g' = f := by
                rw [facEliminate] at hg'
                split at hg'
                · cases hg'; rfl
                · cases hg'; rfl
                · rw [hVn] at hg'
                  simp only [List.not_mem_nil, false_and, exists_false, if_false, if_true] at hg'
                  cases hg'
                  rfl
              rw [hgf]
              exact constFree_optimize (hcf hc) f (by rw [h2]; simp)
            · exact e hVn
          · exact (List.Perm.cons v ho).trans hperm
          · show R.dens σ = _
            rw [hRw.dens_eq, hRj, joint_cons, joint_nil, mul_one, d, ← hfin]
            refine integ_congr (fun τ => ?_) σ
            rw [h2, joint_cons, joint_nil, mul_one]
        · obtain ⟨R, hR, h⟩ := bind_ok.1 h
          have how := optimize_wf hw
          obtain ⟨hRw, hRv, hRj⟩ := mk'_wf hs how hR
          obtain ⟨a, b, c, e, order, ho, d⟩ := ih R _ r hRw hn' h
          refine ⟨a, hall, fun w => ?_, fun hc => e (mk'_constFree (constFree_optimize (hcf hc)) hR), v :: order, ?_,
            fun σ => ?_⟩
          · rw [c w, hRv, hvars', hmemV]
            exact and_not_or
          · exact (List.Perm.cons v ho).trans hperm
          · rw [d, ← hfin]
            exact integ_congr (fun τ => hRj τ) σ

end Product
end Pacal.NDim
