import Verif.Asymp.LemInf

/-!
# Property C72: the interpolators of tails and poles reproduce the function

The specification is in `Verif.Asymp.Spec`.
-/

namespace Pacal
open Asymp Nodes Mon Transform Real Polynomial Set

/-- **C72, the cut-off of a tail.** The search for the point where a tail may be cut always ends.  If the tail decreases, then everything
beyond the result (up to a relative 1e-5) is below 1e-120, and everything before it is at least 1e-150 -- provided that this can be achieved
in the range searched. -/
theorem C72_find_zero (f : ℝ → ℝ) (a : ℝ) : ∃ b, findZero f a = .ok b ∧ a + 1e-5 < b ∧ b < a + 1e100 ∧
    (AntitoneOn f (Ici (a + 1e-5)) →
      (f (a + 1e100) ≤ 1e-120 → ∀ x, a + (b - a) * (1 + 1e-5) ≤ x → f x ≤ 1e-120) ∧
      (1e-150 ≤ f (a + 1e-5) → ∀ x, a + 1e-5 ≤ x → a + (x - a) * (1 + 1e-5) ≤ b → 1e-150 ≤ f x)) :=
  findZero_facts f a

/-- **C72, logarithmic interpolator.** For a positive function on `[a, b)` it can be built; it reports nodes in `[a, b)`, among them `a`, and
reproduces the function there.  In between its logarithm is the interpolating polynomial in the logarithm of the (shifted) variable, beyond `b` it
is 0. -/
theorem C72_log (s : Setting) (hs : 3 ≤ s.maxn) {f : ℝ → ℝ} {a b offset : ℝ} (ho : offset < 2 + max a 0) (hab : a < b)
    (hf : ∀ x ∈ Ico a b, 0 < f x) : ∃ i, logI s f a (some b) offset = .ok i ∧
      Reproduces f i.nodes i.at ∧ (∀ p ∈ i.nodes, p.1 ∈ Ico a b) ∧ (a, f a) ∈ i.nodes ∧
      InterpolatesIn (Icc a b) (fun x => log (2 + x - min a 0 - offset)) exp i.nodes.length i.at ∧
      ∀ x, b < x → i.at x = .ok 0 := by
  obtain ⟨i, h1, _, h3, h4, h5, h6⟩ := logI_facts s hs ho hab hf
  exact ⟨i, h1, ⟨List.ne_nil_of_mem h4, fun p hp => (h3 p hp).2⟩, fun p hp => (h3 p hp).1, h4, h5, h6⟩

/-- Such interpolants are positive everywhere in `[a, b]`, also between the nodes. -/
theorem C72_log_positive (s : Setting) (hs : 3 ≤ s.maxn) {f : ℝ → ℝ} {a b offset : ℝ} (ho : offset < 2 + max a 0) (hab : a < b)
    (hf : ∀ x ∈ Ico a b, 0 < f x) : ∃ i, logI s f a (some b) offset = .ok i ∧
      ∀ x ∈ Icc a b, ∃ y, i.at x = .ok y ∧ 0 < y := by
  obtain ⟨i, h1, _, _, _, ⟨q, _, hq⟩, _⟩ := logI_facts s hs ho hab hf
  exact ⟨i, h1, fun x hx => ⟨_, hq x hx, exp_pos _⟩⟩

/-- Power tails are represented without any error. -/
theorem C72_log_power (s : Setting) (hs : 3 ≤ s.maxn) {f : ℝ → ℝ} {a b offset c r : ℝ} (ho : offset < 2 + max a 0) (hab : a < b)
    (hc : 0 < c) (hf : ∀ x ∈ Icc a b, f x = c * (2 + x - min a 0 - offset) ^ r) : ∃ i, logI s f a (some b) offset = .ok i ∧
      ∀ x ∈ Icc a b, i.at x = .ok (f x) := by
  obtain ⟨n, hn, h⟩ := logI_build s hs f a b offset
  refine ⟨_, h, fun x hx => ?_⟩
  have hpos : ∀ x, a ≤ x → 0 < 2 + x - min a 0 - offset := fun x hx => by
    have := logOff_pos ho hx
    rw [logOff_eq] at this
    linarith
  have hdeg : (C r * X + C (log c) : ℝ[X]).degree < 2 := by
    refine lt_of_le_of_lt degree_linear_le ?_
    norm_num
  have hr := eval_repro .noR hn (logXtinv_lt ho hab).ne (g := fun x => log |f (logXt (logOff a offset) x)|)
    (r := C r * X + C (log c)) hdeg (by
      intro u hu
      have hm := logGrid_mem ho hab hn u hu
      have e : 2 + logXt (logOff a offset) u - min a 0 - offset = exp u := by
        unfold logXt; rw [logOff_eq]; ring
      rw [hf _ ⟨hm.1, hm.2.le⟩, e, ← exp_mul, abs_of_pos (mul_pos hc (exp_pos _)), log_mul hc.ne' (exp_pos _).ne', log_exp]
      simp; ring) (logXtinv (logOff a offset) x)
  have h2 := log_at (i := ⟨a, b, logOff a offset, ⟨.noR, graph (fun x => log |f (logXt (logOff a offset) x)|)
        (grid .noR n (logXtinv (logOff a offset) a) (logXtinv (logOff a offset) b))⟩⟩) (x := x) hx.2 hr
  rw [h2, hf x hx, logXtinv, logOff_eq, show 1 + (x - (min a 0 + offset - 1)) = 2 + x - min a 0 - offset by ring]
  simp only [eval_add, eval_mul, eval_C, eval_X]
  rw [exp_add, exp_log hc, mul_comm r, ← rpow_def_of_pos (hpos x hx.1), mul_comm c]

/-- **C72, change of variable.** For every invertible change of variable the interpolator can be built, and it reproduces the function at the nodes
it reports, which lie in the interval represented; it is a polynomial in the new variable, and 0 at infinity. -/
theorem C72_var (s : Setting) (hs : 3 ≤ s.maxn) (f : ℝ → ℝ) {vt : VT} {D : Set ℝ} (hv : IsChange vt D) (hlt : vt.varMin < vt.varMax)
    (hinf : ∀ t ∈ vt.varInf, t = vt.varMin ∨ t = vt.varMax) : ∃ i, varI s f vt = .ok i ∧
      Reproduces f i.nodes i.at ∧ (∀ p ∈ i.nodes, p.1 ∈ D) ∧
      ∃ q : ℝ[X], q.degree < i.nodes.length + vt.varInf.toFinset.card ∧ (∀ t ∈ vt.varInf, q.eval t = 0) ∧
        ∀ x, i.at x = .ok (q.eval (vt.varChange x)) := by
  classical
  obtain ⟨n, hn, h⟩ := varI_build s hs f vt
  have hN := varI_nodes hv f hn
  refine ⟨_, h, ⟨?_, fun p hp => (hN p hp).2⟩, fun p hp => (hN p hp).1, ?_⟩
  · obtain ⟨t, ht, h1, h2⟩ := inner_mem hn hlt.ne
    apply List.ne_nil_of_mem (a := (vt.inv t, applyScalar vt f t 0 false))
    unfold VarI.nodes
    refine List.mem_map.2 ⟨_, List.mem_filter.2 ⟨List.mem_map.2 ⟨t, ht, rfl⟩, ?_⟩, rfl⟩
    simp only [decide_eq_true_eq]
    intro h'
    rcases hinf t h' with h' | h'
    · exact h1 h'
    · exact h2 h'
  · obtain ⟨q, hd, hq, he⟩ := eval_poly .full hn hlt.ne (fun t => applyScalar vt f t 0 false)
    have hmem : ∀ t ∈ vt.varInf, t ∈ grid .full n vt.varMin vt.varMax := by
      intro t ht
      rcases hinf t ht with rfl | rfl
      · exact first_mem .full (by simp) hn _ _
      · exact last_mem .full (by simp) hn _ _
    refine ⟨q, lt_of_lt_of_le hd ?_, fun t ht => ?_, fun x => he _⟩
    · have hl : (grid .full n vt.varMin vt.varMax).length ≤ ((grid .full n vt.varMin vt.varMax).filter fun t => t ∉ vt.varInf).length
          + vt.varInf.toFinset.card := by
        have hnd := grid_nodup .full (n := n) (by omega) hlt.ne
        rw [← List.toFinset_card_of_nodup hnd, ← List.toFinset_card_of_nodup (hnd.filter _)]
        refine (Finset.card_le_card ?_).trans (Finset.card_union_le _ _)
        intro t ht
        simp only [Finset.mem_union, List.mem_toFinset, List.mem_filter, decide_eq_true_eq] at ht ⊢
        by_cases h' : t ∈ vt.varInf
        · exact .inr h'
        · exact .inl ⟨ht, h'⟩
      have e : (VarI.nodes ⟨vt, ⟨.full, graph (fun t => applyScalar vt f t 0 false) (grid .full n vt.varMin vt.varMax)⟩⟩).length
          = ((grid .full n vt.varMin vt.varMax).filter fun t => t ∉ vt.varInf).length := by
        simp only [VarI.nodes, graph, List.filter_map, List.length_map]
        rfl
      rw [e]
      exact_mod_cast hl
    · rw [hq t (hmem t ht)]
      unfold applyScalar
      rw [if_pos ht]

/-- **C72, half-lines.** For every positive function on `[L, ∞)` the interpolator can be built.  It reproduces the function at the nodes it reports,
one of which is `L`.  Either it is a single interpolant with limit 0 at infinity; or there is a point `U` beyond all nodes where the tail is
cut: the interpolant is continuous on `[L, U]` (the two parts agree where they meet), 0 beyond `U`, and, if the function decreases to below
1e-120 at all, it is below 1e-120 in the part cut off.  The two parts are interpolants in the reciprocal and in the logarithmic variable, with
as many coefficients as there are nodes. -/
theorem C72_pinf (si sa : Setting) (hsi : 3 ≤ si.maxn) (hsa : 3 ≤ sa.maxn) {e : ℝ} (he : 0 < e) {f : ℝ → ℝ} {L : ℝ}
    (hf : ∀ x, L ≤ x → 0 < f x) : ∃ i, pInfI si sa e f L = .ok i ∧ Reproduces f i.nodes i.at ∧ (∀ p ∈ i.nodes, L ≤ p.1) ∧
      (L, f L) ∈ i.nodes ∧
      ((i.U = none ∧ VanishesAtInfinity L i.at) ∨
        ∃ U, i.U = some U ∧ L < U ∧ (∀ p ∈ i.nodes, p.1 < U) ∧ ContinuousIn (Icc L U) i.at ∧ (∀ x, U < x → i.at x = .ok 0) ∧
          (AntitoneOn f (Ici L) → f (L + 1e100) ≤ 1e-120 → ∀ x, U + (U - L) * 1e-5 ≤ x → f x ≤ 1e-120) ∧
          ∃ m n₁ n₂, L ≤ m ∧ m < U ∧ n₁ + n₂ = i.nodes.length ∧ InterpolatesIn (Icc L m) (recPVar L e) id n₁ i.at ∧
            InterpolatesIn (Icc m U) (fun x => log (1 + x - min m 0)) exp n₂ i.at) := by
  rcases pInfI_cases si sa hsi he f L with ⟨n, hn, h⟩ | ⟨m, n, hm, hn, h⟩
  · have hN := varI_nodes (C42_reciprocal_pinf L he) f hn
    have hlast := varI_last (L := L) (e := e) none f hn
    refine ⟨_, h, ⟨?_, ?_⟩, ?_, ?_, .inl ⟨rfl, ?_⟩⟩
    · apply List.ne_nil_of_mem (a := (L, f L))
      exact List.mem_append_left _ hlast
    · intro p hp
      simp only [PInfI.nodes, List.append_nil] at hp
      exact (hN p hp).2
    · intro p hp
      simp only [PInfI.nodes, List.append_nil] at hp
      exact (hN p hp).1
    · exact List.mem_append_left _ hlast
    · obtain ⟨q, _, hq, hev⟩ := eval_poly .full hn (a := 0) (b := 1) zero_ne_one (fun t => applyScalar (recP L e none) f t 0 false)
      refine ⟨fun x => q.eval (recPVar L e x), ?_, fun x _ => hev _⟩
      have h0 : q.eval 0 = 0 := by
        rw [hq 0 (first_mem .full (by simp) hn _ _)]
        unfold applyScalar
        rw [if_pos (by simp [recP])]
      have := (q.continuous.tendsto 0).comp (recPVar_tendsto (L := L) he)
      rwa [h0] at this
  · obtain ⟨U, hU, hU1, _, hU3⟩ := findZero_facts f m
    have hmU : m < U := lt_trans (by norm_num) hU1
    obtain ⟨vl, hvl, hvB, hl1, hl2, ⟨ql, hld, hl3⟩, hl4⟩ := logI_facts sa hsa (offset := 1) (by
      have : 0 ≤ max m 0 := le_max_right _ _
      linarith) hmU (fun x hx => hf x (hm.trans hx.1))
    replace h := h vl (by rw [logI_none sa f m 1 hU]; exact hvl)
    have hN := varI_nodes (C42_reciprocal_pinf_finite hm he) f hn
    have hlast := varI_last (L := L) (e := e) (some m) f hn
    have hfirst := varI_first he hm f hn
    have hatm := (hN _ hfirst).2.2
    have hbelow : ∀ (vb : VarI) x, x ≤ m → PInfI.at ⟨some m, vb, some vl, some vl.origB⟩ x = vb.at x := by
      intro vb x hx
      unfold PInfI.at
      simp only []
      rw [if_pos hx]
    have habove : ∀ (vb : VarI) x, m < x → PInfI.at ⟨some m, vb, some vl, some vl.origB⟩ x = vl.at x := by
      intro vb x hx
      unfold PInfI.at
      simp only []
      rw [if_neg (not_le.2 hx)]
    have hall : ∀ p ∈ PInfI.nodes ⟨some m, ⟨recP L e (some m), ⟨.full,
        graph (fun t => applyScalar (recP L e (some m)) f t 0 false) (grid .full n (recPVar L e m) 1)⟩⟩, some vl, some vl.origB⟩,
        (L ≤ p.1 ∧ p.1 < U) ∧ p.2 = f p.1 ∧ PInfI.at ⟨some m, ⟨recP L e (some m), ⟨.full,
        graph (fun t => applyScalar (recP L e (some m)) f t 0 false) (grid .full n (recPVar L e m) 1)⟩⟩, some vl, some vl.origB⟩ p.1
          = .ok (f p.1) := by
      intro p hp
      rcases List.mem_append.1 hp with hp | hp
      · obtain ⟨h1, h2, h3⟩ := hN p hp
        refine ⟨⟨h1.1, h1.2.trans_lt hmU⟩, h2, ?_⟩
        rw [hbelow _ _ h1.2]; exact h3
      · obtain ⟨h1, h2, h3⟩ := hl1 p hp
        refine ⟨⟨hm.trans h1.1, h1.2⟩, h2, ?_⟩
        rcases eq_or_lt_of_le h1.1 with h' | h'
        · rw [hbelow _ _ h'.symm.le, ← h']; exact hatm
        · rw [habove _ _ h']; exact h3
    refine ⟨_, h, ⟨?_, fun p hp => (hall p hp).2⟩, fun p hp => (hall p hp).1.1, List.mem_append_left _ hlast,
      .inr ⟨U, by rw [hvB], hm.trans_lt hmU, fun p hp => (hall p hp).1.2, ?_, ?_, ?_, ?_⟩⟩
    · exact List.ne_nil_of_mem (List.mem_append_left _ hlast)
    · obtain ⟨gb, hgb, hgb'⟩ : ContinuousIn (Icc L m) (VarI.at ⟨recP L e (some m), ⟨.full,
          graph (fun t => applyScalar (recP L e (some m)) f t 0 false) (grid .full n (recPVar L e m) 1)⟩⟩) := by
        rcases eq_or_lt_of_le hm with rfl | hlt
        · refine ⟨fun _ => f L, continuousOn_const, fun x hx => ?_⟩
          rw [Icc_self, mem_singleton_iff] at hx
          rw [hx]; exact hatm
        · have hne : recPVar L e m ≠ 1 := by
            intro h1
            have e1 : (recP L e (some m)).inv (recPVar L e m) = m := recP_right (some m) he hm
            rw [h1, recP_inv_one] at e1
            exact hlt.ne e1
          obtain ⟨q, _, _, hev⟩ := eval_poly .full hn hne (fun t => applyScalar (recP L e (some m)) f t 0 false)
          refine ⟨fun x => q.eval (recPVar L e x), ?_, fun x _ => hev _⟩
          exact q.continuous.comp_continuousOn ((recPVar_cont he).mono fun x hx => hx.1)
      have hgl : ContinuousOn (fun x => exp (ql.eval (log (2 + x - min m 0 - 1)))) (Icc m U) := by
        refine continuous_exp.comp_continuousOn (ql.continuous.comp_continuousOn ?_)
        refine ContinuousOn.log (by fun_prop) fun x hx => ?_
        have := min_add_max m 0
        have : 0 ≤ max m 0 := le_max_right _ _
        have := hx.1
        intro h0
        linarith
      have hgm : gb m = exp (ql.eval (log (2 + m - min m 0 - 1))) := by
        have e1 := hgb' m ⟨hm, le_rfl⟩
        have e2 := hl3 m ⟨le_rfl, hmU.le⟩
        rw [(hl1 _ hl2).2.2] at e2
        have e3 := e1.symm.trans hatm
        injection e3 with e3
        injection e2 with e2
        rw [e3, e2]
      refine ⟨fun x => if x ≤ m then gb x else exp (ql.eval (log (2 + x - min m 0 - 1))), ?_, ?_⟩
      · rw [← Icc_union_Icc_eq_Icc hm hmU.le]
        refine ContinuousOn.union_of_isClosed ?_ ?_ isClosed_Icc isClosed_Icc
        · exact hgb.congr fun x hx => if_pos hx.2
        · refine hgl.congr fun x hx => ?_
          rcases eq_or_lt_of_le hx.1 with rfl | h'
          · simp only [le_refl, if_true]; exact hgm
          · exact if_neg (not_le.2 h')
      · intro x hx
        beta_reduce
        by_cases hxm : x ≤ m
        · rw [hbelow _ _ hxm, if_pos hxm]; exact hgb' x ⟨hx.1, hxm⟩
        · rw [habove _ _ (not_le.1 hxm), if_neg hxm]; exact hl3 x ⟨(not_le.1 hxm).le, hx.2⟩
    · intro x hx
      rw [habove _ _ (hmU.trans hx)]
      exact hl4 x hx
    · intro hanti hend x hx
      have hm5 : L ≤ m + 1e-5 := hm.trans (by norm_num)
      refine (hU3 (hanti.mono (Ici_subset_Ici.2 hm5))).1 ?_ x ?_
      · refine le_trans (hanti (mem_Ici.2 (by norm_num)) (mem_Ici.2 ?_) ?_) hend
        · exact hm.trans (by norm_num)
        · linarith
      · have : (U - m) * 1e-5 ≤ (U - L) * 1e-5 := mul_le_mul_of_nonneg_right (by linarith) (by norm_num)
        linarith
    · refine ⟨m, _, vl.nodes.length, hm, hmU, (List.length_append (as := VarI.nodes _)).symm, ?_, ql, hld, ?_⟩
      · rcases eq_or_lt_of_le hm with rfl | hlt
        · refine ⟨C (f L), lt_of_le_of_lt degree_C_le ?_, fun x hx => ?_⟩
          · exact_mod_cast List.length_pos_of_mem hlast
          · rw [Icc_self, mem_singleton_iff] at hx
            rw [hx, hbelow _ _ le_rfl, eval_C]; exact hatm
        · have hne : recPVar L e m ≠ 1 := by
            intro h1
            have e1 : (recP L e (some m)).inv (recPVar L e m) = m := recP_right (some m) he hm
            rw [h1, recP_inv_one] at e1
            exact hlt.ne e1
          obtain ⟨q, hd, _, hev⟩ := eval_poly .full hn hne (fun t => applyScalar (recP L e (some m)) f t 0 false)
          refine ⟨q, lt_of_lt_of_le hd ?_, fun x hx => ?_⟩
          · simp [VarI.nodes, graph, recP]
          · rw [hbelow _ _ hx.2]; exact hev _
      · intro x hx
        have e1 : (1 : ℝ) + x - min m 0 = 2 + x - min m 0 - 1 := by ring
        beta_reduce
        rw [e1]
        rcases eq_or_lt_of_le hx.1 with rfl | h'
        · rw [hbelow _ _ le_rfl, ← hl3 m ⟨le_rfl, hmU.le⟩, (hl1 _ hl2).2.2]; exact hatm
        · rw [habove _ _ h']; exact hl3 x hx

/-- **C72, the other half-line.** The same for `(-∞, U]`. -/
theorem C72_minf (si sa : Setting) (hsi : 3 ≤ si.maxn) (hsa : 3 ≤ sa.maxn) {e : ℝ} (he : 0 < e) {f : ℝ → ℝ} {U : ℝ}
    (hf : ∀ x, x ≤ U → 0 < f x) : ∃ i, mInfI si sa e f U = .ok i ∧ Reproduces f i.nodesM i.atM ∧ (∀ p ∈ i.nodesM, p.1 ≤ U) ∧
      (U, f U) ∈ i.nodesM ∧
      ((i.lower = none ∧ VanishesAtInfinity (-U) fun x => i.atM (-x)) ∨
        ∃ L, i.lower = some L ∧ L < U ∧ (∀ p ∈ i.nodesM, L < p.1) ∧ ContinuousIn (Icc L U) i.atM ∧ (∀ x, x < L → i.atM x = .ok 0) ∧
          (MonotoneOn f (Iic U) → f (U - 1e100) ≤ 1e-120 → ∀ x, x ≤ L - (U - L) * 1e-5 → f x ≤ 1e-120) ∧
          ∃ m n₁ n₂, L < m ∧ m ≤ U ∧ n₁ + n₂ = i.nodesM.length ∧ InterpolatesIn (Icc m U) (fun x => recPVar (-U) e (-x)) id n₁ i.atM ∧
            InterpolatesIn (Icc L m) (fun x => log (1 + max m 0 - x)) exp n₂ i.atM) := by
  obtain ⟨i, h1, ⟨h2, h3⟩, h4, h5, h6⟩ := C72_pinf si sa hsi hsa he (f := fun x => f (-x)) (L := -U) (fun x hx => hf _ (by linarith))
  refine ⟨i, h1, ⟨?_, ?_⟩, ?_, ?_, ?_⟩
  · simpa [PInfI.nodesM] using h2
  · intro p hp
    obtain ⟨q, hq, rfl⟩ := List.mem_map.1 hp
    obtain ⟨e1, e2⟩ := h3 q hq
    exact ⟨e1, by simpa [PInfI.atM] using e2⟩
  · intro p hp
    obtain ⟨q, hq, rfl⟩ := List.mem_map.1 hp
    have := h4 q hq
    simp only
    linarith
  · exact List.mem_map.2 ⟨_, h5, by simp⟩
  · rcases h6 with ⟨hu, g, hg, hg'⟩ | ⟨V, hV, hlt, hn, ⟨g, hg, hg'⟩, hz, ht, m, n₁, n₂, hm1, hm2, hnn, ⟨q1, hq1, hq1'⟩, ⟨q2, hq2, hq2'⟩⟩
    · left
      refine ⟨by simp [PInfI.lower, hu], g, hg, fun x hx => ?_⟩
      simpa [PInfI.atM] using hg' x hx
    · right
      refine ⟨-V, by simp [PInfI.lower, hV], by linarith, ?_, ?_, ?_, ?_, ?_⟩
      · intro p hp
        obtain ⟨q, hq, rfl⟩ := List.mem_map.1 hp
        have := hn q hq
        simp only
        linarith
      · refine ⟨fun x => g (-x), ?_, ?_⟩
        · refine hg.comp continuous_neg.continuousOn fun x hx => ?_
          exact ⟨by linarith [hx.2], by linarith [hx.1]⟩
        · intro x hx
          exact hg' (-x) ⟨by linarith [hx.2], by linarith [hx.1]⟩
      · intro x hx
        exact hz (-x) (by linarith)
      · intro hmono hend x hx
        have := ht (fun x hx y hy hxy => hmono (mem_Iic.2 (by have := mem_Ici.1 hy; linarith))
          (mem_Iic.2 (by have := mem_Ici.1 hx; linarith)) (by linarith)) (by
            rw [show -(-U + 1e100 : ℝ) = U - 1e100 by ring]; exact hend) (-x) (by linarith)
        simpa using this
      · refine ⟨-m, n₁, n₂, by linarith, by linarith, by simpa [PInfI.nodesM] using hnn, ⟨q1, hq1, fun x hx => ?_⟩, ⟨q2, hq2, fun x hx => ?_⟩⟩
        · exact hq1' (-x) ⟨by linarith [hx.2], by linarith [hx.1]⟩
        · have := hq2' (-x) ⟨by linarith [hx.2], by linarith [hx.1]⟩
          have e1 : (1 : ℝ) + -x - min m 0 = 1 + max (-m) 0 - x := by
            rw [show max (-m) 0 = -min m 0 by rw [← neg_zero, max_neg_neg, neg_zero]]; ring
          beta_reduce at this
          rwa [e1] at this

/-- **C72, pole at the left end** (partial).  For a function of constant sign the interpolator can be built; the nodes it reports carry the values
of the function, it never has the wrong sign, and it is determined by a polynomial in the logarithm of the distance to the pole.  But it
returns the value at a node at a point which is `2 * offset` to the left of the node.  (Full statement: `Reproduces f i.nodesP i.atP` with all nodes
in `(a, b]`, refuted by `C72_violated_pole_shift` and `C72_violated_pole_outside`.) -/
theorem C72_poleP_partial (s : Setting) (hs : 3 ≤ s.maxn) {eps : ℝ} (heps : 0 < eps) {f : ℝ → ℝ} {a b σ : ℝ} (hab : a < b)
    (hσ : (σ = 1 ∧ 0 ≤ f ((a + b) / 2)) ∨ (σ = -1 ∧ f ((a + b) / 2) < 0))
    (hf : ∀ x, a < x → x ≤ b + 2 * poleOffset eps a → 0 ≤ σ * f x) :
    ∃ i, poleP s eps f a b = .ok i ∧
      (∀ p ∈ i.nodesP, p.1 ∈ Ioc (a + 2 * poleOffset eps a) (b + 2 * poleOffset eps a) ∧ p.2 = f p.1 ∧
        i.atP (p.1 - 2 * poleOffset eps a) = .ok (f p.1)) ∧
      (b + 2 * poleOffset eps a, f (b + 2 * poleOffset eps a)) ∈ i.nodesP ∧
      InterpolatesIn univ (fun x => log (x - a + poleOffset eps a)) (fun y => σ * (exp |y| - 1)) i.nodesP.length i.atP ∧
      ∀ x, ∃ y, i.atP x = .ok y ∧ 0 ≤ σ * y := by
  obtain ⟨n, hn, h⟩ := poleP_build s hs eps f a b
  have ho := poleOffset_pos heps a
  obtain ⟨off, hoff⟩ : ∃ off, off = poleOffset eps a := ⟨_, rfl⟩
  have hsg : signP (f ((a + b) / 2)) = σ := by
    unfold signP npSign
    rcases hσ with ⟨rfl, h0⟩ | ⟨rfl, h0⟩
    · rcases eq_or_lt_of_le h0 with h' | h'
      · rw [← h']; simp
      · simp [h']
    · simp [h0, not_lt.2 h0.le]
  have hss : σ * σ = 1 := by rcases hσ with ⟨rfl, _⟩ | ⟨rfl, _⟩ <;> norm_num
  rw [← hoff] at ho hf h ⊢
  rw [hsg] at h
  obtain ⟨hlt, hg⟩ := poleP_grid ho hab hn
  have hval : ∀ u ∈ grid .noL n (xtinvP a off a) (xtinvP a off b), 0 ≤ log (1 + σ * f (xtP a off u)) ∧
      σ * (exp (log (1 + σ * f (xtP a off u))) - 1) = f (xtP a off u) := by
    intro u hu
    have hm := hg u hu
    have h0 := hf _ (by linarith [hm.1]) hm.2
    refine ⟨log_nonneg (by linarith), ?_⟩
    rw [exp_log (by linarith), add_sub_cancel_left, ← mul_assoc, hss, one_mul]
  refine ⟨_, h, ?_, ?_, ?_, ?_⟩
  · intro p hp
    obtain ⟨r, hr, rfl⟩ := List.mem_map.1 hp
    obtain ⟨u, hu, rfl⟩ := List.mem_map.1 hr
    refine ⟨hg u hu, (hval u hu).2, ?_⟩
    unfold PoleI.atP
    rw [at_ok_map (g := fun y => σ * (exp |y| - 1)) (y := log (1 + σ * f (xtP a off u)))]
    · rw [abs_of_nonneg (hval u hu).1, (hval u hu).2]
    · simp only [Poly.at]
      rw [xtinvP_xt]
      exact eval_node .noL _ _ hu
  · have hl := last_mem .noL (by simp) hn (xtinvP a off a) (xtinvP a off b)
    refine List.mem_map.2 ⟨_, List.mem_map.2 ⟨_, hl, rfl⟩, ?_⟩
    simp only []
    rw [(hval _ hl).2, xtP_eq (by linarith)]
  · obtain ⟨q, hd, _, he⟩ := eval_poly .noL hn hlt.ne (fun x => log (1 + σ * f (xtP a off x)))
    refine ⟨q, by simpa [PoleI.nodesP, graph] using hd, fun x _ => ?_⟩
    exact at_ok_map (g := fun y => σ * (exp |y| - 1)) (he (log (x - a + off)))
  · intro x
    obtain ⟨q, hd, _, he⟩ := eval_poly .noL hn hlt.ne (fun x => log (1 + σ * f (xtP a off x)))
    refine ⟨_, at_ok_map (g := fun y => σ * (exp |y| - 1)) (he (log (x - a + off))), ?_⟩
    rw [← mul_assoc, hss, one_mul]
    have := one_le_exp (abs_nonneg (q.eval (log (x - a + off))))
    linarith

/-- **C72, pole at the right end** (partial).  As for the left end, if the value in the middle of the interval is not 0; here the values reported at
the nodes are those of the function only if it is positive. -/
theorem C72_poleN_partial (s : Setting) (hs : 3 ≤ s.maxn) {eps : ℝ} (heps : 0 < eps) {f : ℝ → ℝ} {a b σ : ℝ} (hab : a < b)
    (hσ : (σ = 1 ∧ 0 < f ((a + b) / 2)) ∨ (σ = -1 ∧ f ((a + b) / 2) < 0))
    (hf : ∀ x, a - 2 * poleOffset eps b ≤ x → x < b → 0 ≤ σ * f x) :
    ∃ i, poleN s eps f a b = .ok i ∧
      (∀ p ∈ i.nodesN, p.1 ∈ Ico (a - 2 * poleOffset eps b) (b - 2 * poleOffset eps b) ∧ p.2 = σ * f p.1 ∧
        i.atN (p.1 + 2 * poleOffset eps b) = .ok (f p.1)) ∧
      (a - 2 * poleOffset eps b, σ * f (a - 2 * poleOffset eps b)) ∈ i.nodesN ∧
      InterpolatesIn univ (fun x => log (b - x + poleOffset eps b)) (fun y => σ * (exp y - 1)) i.nodesN.length i.atN := by
  obtain ⟨n, hn, h⟩ := poleN_build s hs eps f a b
  have ho := poleOffset_pos heps b
  obtain ⟨off, hoff⟩ : ∃ off, off = poleOffset eps b := ⟨_, rfl⟩
  have hsg : npSign (f ((a + b) / 2)) = σ := by
    unfold npSign
    rcases hσ with ⟨rfl, h0⟩ | ⟨rfl, h0⟩
    · simp [h0]
    · simp [h0, not_lt.2 h0.le]
  have hss : σ * σ = 1 := by rcases hσ with ⟨rfl, _⟩ | ⟨rfl, _⟩ <;> norm_num
  rw [← hoff] at ho hf h ⊢
  rw [hsg] at h
  obtain ⟨hlt, hg⟩ := poleN_grid ho hab hn
  have hval : ∀ u ∈ grid .noR n (xtinvN b off a) (xtinvN b off b),
      exp (log (1 + σ * f (xtN b off u))) - 1 = σ * f (xtN b off u) := by
    intro u hu
    have hm := hg u hu
    have h0 := hf _ hm.1 (by linarith [hm.2])
    rw [exp_log (by linarith), add_sub_cancel_left]
  refine ⟨_, h, ?_, ?_, ?_⟩
  · intro p hp
    obtain ⟨r, hr, rfl⟩ := List.mem_map.1 hp
    obtain ⟨u, hu, rfl⟩ := List.mem_map.1 hr
    refine ⟨hg u hu, hval u hu, ?_⟩
    unfold PoleI.atN
    rw [at_ok_map (g := fun y => σ * (exp y - 1)) (y := log (1 + σ * f (xtN b off u)))]
    · rw [hval u hu, ← mul_assoc, hss, one_mul]
    · simp only [Poly.at]
      rw [xtinvN_xt]
      exact eval_node .noR _ _ hu
  · have hl := first_mem .noR (by simp) hn (xtinvN b off a) (xtinvN b off b)
    refine List.mem_map.2 ⟨_, List.mem_map.2 ⟨_, hl, rfl⟩, ?_⟩
    simp only []
    rw [hval _ hl, xtN_eq (by linarith)]
  · obtain ⟨q, hd, _, he⟩ := eval_poly .noR hn hlt.ne' (fun x => log (1 + σ * f (xtN b off x)))
    refine ⟨q, by simpa [PoleI.nodesN, graph] using hd, fun x _ => ?_⟩
    have := at_ok_map (g := fun y => σ * (exp y - 1)) (he (log (-(x - b) + off)))
    rw [show -(x - b) = b - x by ring] at this
    rw [← this]
    simp only [PoleI.atN, Poly.at, xtinvN, show -(x - b) = b - x by ring]

/-- **Violated: the interpolant with a pole at the left end does not reproduce the function at its nodes.**  It is shifted by twice the
offset: for `f(x) = 1 / (x - 1e-50) - 1` on `(0, 1/2]`, which it represents exactly up to this shift, the last node reported is `1/2 + 2e-50`, but
the value there is not that of `f`. -/
theorem C72_violated_pole_shift (s : Setting) (hs : 3 ≤ s.maxn) {eps : ℝ} (heps : 0 < eps) :
    ∃ i, poleP s eps (fun x => 1 / (x - 1e-50) - 1) 0 (1 / 2) = .ok i ∧ ¬ Reproduces (fun x => 1 / (x - 1e-50) - 1) i.nodesP i.atP := by
  obtain ⟨n, hn, h⟩ := poleP_build s hs eps (fun x => 1 / (x - 1e-50) - 1) 0 (1 / 2)
  have eo : poleOffset eps 0 = 1e-50 := by simp [poleOffset]
  obtain ⟨off, hoff⟩ : ∃ off : ℝ, off = 1e-50 := ⟨_, rfl⟩
  have ho : 0 < off := by rw [hoff]; norm_num
  have ho1 : off < 1 / 1000 := by rw [hoff]; norm_num
  rw [eo, ← hoff] at h
  rw [← hoff]
  have hsg : signP ((fun x : ℝ => 1 / (x - off) - 1) ((0 + 1 / 2) / 2)) = 1 := by
    have : (0 : ℝ) < 1 / ((0 + 1 / 2) / 2 - off) - 1 := by
      rw [sub_pos, lt_div_iff₀ (by linarith)]; linarith
    simp only [signP, npSign]
    rw [if_pos this]
    norm_num
  simp only [hsg] at h
  obtain ⟨hlt, hg⟩ := poleP_grid ho (show (0 : ℝ) < 1 / 2 by norm_num) hn
  refine ⟨_, h, fun hR => ?_⟩
  have hl := last_mem .noL (by simp) hn (xtinvP 0 off 0) (xtinvP 0 off (1 / 2))
  obtain ⟨_, h2⟩ := hR.2 _ (List.mem_map.2 ⟨_, List.mem_map.2 ⟨_, hl, rfl⟩, rfl⟩)
  simp only [] at h2
  rw [xtP_eq (by linarith)] at h2
  have hdeg : (-X : ℝ[X]).degree < 2 := by rw [degree_neg, degree_X]; norm_num
  have hr := eval_repro .noL hn hlt.ne (g := fun x => log (1 + 1 * (1 / (xtP 0 off x - off) - 1))) (r := -X) hdeg (by
    intro u hu
    simp only [xtP]
    rw [show exp u + 0 + off - off = exp u by ring, show 1 + 1 * (1 / exp u - 1) = (exp u)⁻¹ by ring, log_inv, log_exp]
    simp) (xtinvP 0 off (1 / 2 + 2 * off))
  have h3 := at_ok_map (g := fun y => 1 * (exp |y| - 1)) hr
  replace h2 := h3.symm.trans h2
  injection h2 with h2
  have hlog : log (1 / 2 + 3 * off) < 0 := log_neg (by linarith) (by linarith)
  simp only [eval_neg, eval_X, xtinvP] at h2
  rw [show (1 / 2 + 2 * off - 0 + off : ℝ) = 1 / 2 + 3 * off by ring, abs_of_pos (by linarith), exp_neg,
    exp_log (by linarith), show (1 / 2 + 2 * off - off : ℝ) = 1 / 2 + off by ring] at h2
  have h4 : (1 / 2 + 3 * off)⁻¹ = (1 / 2 + off)⁻¹ := by rw [one_div (1 / 2 + off)] at h2; linarith
  have := inv_injective h4
  linarith

/-- **Violated: interpolants with a pole sample the function outside the interval.**  The last node of an interpolant on `[-1, 0]` with the pole
at `-1` is `2 * eps`; the first node of one on `[0, 1]` with the pole at `1` is `-2 * eps`.  This holds for every function. -/
theorem C72_violated_pole_outside (s : Setting) (hs : 3 ≤ s.maxn) {eps : ℝ} (heps : 0 < eps) (f : ℝ → ℝ) :
    (∃ i, poleP s eps f (-1) 0 = .ok i ∧ ∃ p ∈ i.nodesP, p.1 = 2 * eps) ∧
    (∃ i, poleN s eps f 0 1 = .ok i ∧ ∃ p ∈ i.nodesN, p.1 = -(2 * eps)) := by
  constructor
  · obtain ⟨n, hn, h⟩ := poleP_build s hs eps f (-1) 0
    have eo : poleOffset eps (-1) = eps := by simp [poleOffset]
    rw [eo] at h
    refine ⟨_, h, _, List.mem_map.2 ⟨_, List.mem_map.2 ⟨_, last_mem .noL (by simp) hn _ _, rfl⟩, rfl⟩, ?_⟩
    simp only []
    rw [xtP_eq (by linarith)]; ring
  · obtain ⟨n, hn, h⟩ := poleN_build s hs eps f 0 1
    have eo : poleOffset eps 1 = eps := by simp [poleOffset]
    rw [eo] at h
    refine ⟨_, h, _, List.mem_map.2 ⟨_, List.mem_map.2 ⟨_, first_mem .noR (by simp) hn _ _, rfl⟩, rfl⟩, ?_⟩
    simp only []
    rw [xtN_eq (by linarith)]; ring

/-- **Violated: with a pole at the right end the sign is lost.**  If the function is 0 in the middle of the interval, the interpolant is 0 everywhere
(the other interpolator replaces a zero sign by 1). -/
theorem C72_violated_poleN_zero (s : Setting) (hs : 3 ≤ s.maxn) {eps : ℝ} (f : ℝ → ℝ) {a b : ℝ} (hab : a < b) (heps : 0 < eps)
    (hmid : f ((a + b) / 2) = 0) : ∃ i, poleN s eps f a b = .ok i ∧ ∀ x, i.atN x = .ok 0 := by
  obtain ⟨n, hn, h⟩ := poleN_build s hs eps f a b
  refine ⟨_, h, fun x => ?_⟩
  obtain ⟨hlt, _⟩ := poleN_grid (poleOffset_pos heps b) hab hn
  obtain ⟨q, _, _, he⟩ := eval_poly .noR hn hlt.ne'
    (fun x => log (1 + npSign (f ((a + b) / 2)) * f (xtN b (poleOffset eps b) x)))
  have := at_ok_map (g := fun y => npSign (f ((a + b) / 2)) * (exp y - 1)) (he (xtinvN b (poleOffset eps b) x))
  have e0 : npSign (f ((a + b) / 2)) = 0 := by rw [hmid]; simp [npSign]
  refine Eq.trans this ?_
  rw [e0, zero_mul]

/-- **Violated: the nodes reported with a pole at the right end have the wrong sign** for negative functions: for `f = -1` they all have
value 1. -/
theorem C72_violated_poleN_sign (s : Setting) (hs : 3 ≤ s.maxn) {eps : ℝ} (heps : 0 < eps) :
    ∃ i, poleN s eps (fun _ => -1) 0 1 = .ok i ∧ i.nodesN ≠ [] ∧ ∀ p ∈ i.nodesN, p.2 = 1 := by
  obtain ⟨i, h1, h2, h3, _⟩ := C72_poleN_partial s hs heps (f := fun _ => -1) (σ := -1) zero_lt_one (.inr ⟨rfl, by norm_num⟩)
    (fun x _ _ => by norm_num)
  exact ⟨i, h1, List.ne_nil_of_mem h3, fun p hp => by rw [(h2 p hp).2.1]; norm_num⟩

/-- **Violated for negative functions**: the logarithmic interpolator represents the absolute value; for `f = -1` on `[0, 1]` it is 1. -/
theorem C72_violated_log_negative (s : Setting) (hs : 3 ≤ s.maxn) :
    ∃ i, logI s (fun _ => -1) 0 (some 1) 1 = .ok i ∧ ∀ x ∈ Icc (0 : ℝ) 1, i.at x = .ok 1 := by
  obtain ⟨i, h1, h2⟩ := C72_log_power s hs (f := fun _ => 1) (a := 0) (b := 1) (offset := 1) (c := 1) (r := 0) (by norm_num) one_pos
    one_pos (by intro x _; simp)
  refine ⟨i, ?_, h2⟩
  rw [← h1]
  simp [logI]

/-! ### concrete cases -/

/-- the settings of the package (`params.interpolation_asymp`, params.py:70-77, 112-116) -/
noncomputable def asympSetting : Setting := ⟨⟨16 / 2 ^ 52, 16 / 2 ^ 52, 10000, 2, 1 / 2, false⟩, 100⟩

/-- the tail of an exponential distribution -/
example : ∃ i, pInfI asympSetting asympSetting 6 (fun x => exp (-x)) 1 = .ok i ∧ Reproduces (fun x => exp (-x)) i.nodes i.at := by
  obtain ⟨i, h1, h2, _⟩ := C72_pinf asympSetting asympSetting (by norm_num [asympSetting]) (by norm_num [asympSetting])
    (e := 6) (by norm_num) (f := fun x => exp (-x)) (L := 1) (fun x _ => exp_pos _)
  exact ⟨i, h1, h2⟩
example : ∃ i, mInfI asympSetting asympSetting 6 (fun x => exp x) (-1) = .ok i ∧ Reproduces (fun x => exp x) i.nodesM i.atM := by
  obtain ⟨i, h1, h2, _⟩ := C72_minf asympSetting asympSetting (by norm_num [asympSetting]) (by norm_num [asympSetting])
    (e := 6) (by norm_num) (f := fun x => exp x) (U := -1) (fun x _ => exp_pos _)
  exact ⟨i, h1, h2⟩
/-- a Pareto tail is represented exactly -/
example : ∃ i, logI asympSetting (fun x => 3 * (1 + x) ^ (-4 : ℝ)) 1 (some 10) 1 = .ok i ∧ i.at 7 = .ok (3 * (1 + 7) ^ (-4 : ℝ)) := by
  obtain ⟨i, h1, h2⟩ := C72_log_power asympSetting (by norm_num [asympSetting]) (f := fun x => 3 * (1 + x) ^ (-4 : ℝ)) (a := 1) (b := 10)
    (offset := 1) (c := 3) (r := -4) (by norm_num) (by norm_num) (by norm_num) (by
      intro x _
      rw [show 2 + x - min 1 0 - 1 = 1 + x by norm_num; ring])
  exact ⟨i, h1, h2 7 ⟨by norm_num, by norm_num⟩⟩
/-- a pole like that of a squared normal variable -/
example : ∃ i, poleP asympSetting 1e-16 (fun x => 1 / √x) 0 1 = .ok i ∧ i.nodesP ≠ [] := by
  obtain ⟨i, h1, _, h2, _⟩ := C72_poleP_partial asympSetting (by norm_num [asympSetting]) (eps := 1e-16) (by norm_num) (f := fun x => 1 / √x)
    (σ := 1) one_pos (.inl ⟨rfl, by positivity⟩) (fun x _ _ => by positivity)
  exact ⟨i, h1, List.ne_nil_of_mem h2⟩
/-- the cut-off of an exponential tail: `exp(-x)` is antitone, tiny at the end of the range and not at its start -/
example : ∃ b, findZero (fun x => exp (-x)) 0 = .ok b ∧ ∀ x, b * (1 + 1e-5) ≤ x → exp (-x) ≤ 1e-120 := by
  obtain ⟨b, h1, _, _, h2⟩ := C72_find_zero (fun x => exp (-x)) 0
  refine ⟨b, h1, fun x hx => (h2 fun x _ y _ h => exp_le_exp.2 (by linarith)).1 ?_ x (by linarith)⟩
  have h3 : (1e100 : ℝ) ≤ exp 1e100 := by linarith [add_one_le_exp (1e100 : ℝ)]
  have h4 : (1e100 : ℝ) / 2 + 1 ≤ exp (1e100 / 2) := add_one_le_exp _
  rw [zero_add, exp_neg]
  have h5 : exp (1e100 : ℝ) = exp (1e100 / 2) * exp (1e100 / 2) := by rw [← exp_add]; norm_num
  rw [inv_le_comm₀ (exp_pos _) (by norm_num), h5]
  calc (1e-120 : ℝ)⁻¹ ≤ (1e100 / 2 + 1) * (1e100 / 2 + 1) := by norm_num
    _ ≤ _ := mul_le_mul h4 h4 (by norm_num) (exp_pos _).le

end Pacal
