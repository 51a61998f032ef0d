import Verif.Identity.LemKind

/-!
Lemmas for `Verif.Identity.PropsExact`: which standard distributions have no pieces below 0.
-/

namespace Pacal.Identity
open MeasureTheory ProbabilityTheory Standard

theorem linked_low : ∀ (l : List (Seg ℝ)) (y : Seg ℝ), (y :: l).IsChain (fun s t => s.hi = t.lo) → (∀ s ∈ y :: l, s.lo ≤ s.hi) →
    ∀ t ∈ y :: l, y.lo ≤ t.lo
  | [], y, _, _, t, ht => by rw [List.mem_singleton] at ht; rw [ht]
  | z :: l, y, hc, hl, t, ht => by
    rw [List.isChain_cons_cons] at hc
    rcases List.mem_cons.1 ht with rfl | ht
    · exact le_refl _
    · exact (hl y (by simp)).trans (hc.1 ▸ linked_low l z hc.2 (fun s hs => hl s (List.mem_cons_of_mem _ hs)) t ht)

theorem pos_of {eps : ℝ} {y : Seg ℝ} {l : List (Seg ℝ)} {r : PF ℝ} (hr : PF.addAll eps [] (y :: l) = some r) (hw : PF.WF eps r)
    (hd : ∀ s ∈ y :: l, s.isDirac = false) (hc : (y :: l).IsChain fun s t => s.hi = t.lo) (hy : (Ext.fin 0 : Ext ℝ) ≤ y.lo) : PosPF r := by
  have hp : r.Perm (y :: l) := by simpa using addAll_perm _ [] r hd hr
  intro s hs
  exact hy.trans (linked_low l y hc (fun t ht => Seg.lo_le_hi (hw.seg t (hp.mem_iff.2 ht))) s (hp.mem_iff.1 hs))

theorem ofFun_pos {eps : ℝ} {f : ℝ → ℝ} {a : ℝ} {bps : List (Ext ℝ)} {lp rp : Option (List Bool)} {r : PF ℝ} (ha : 0 ≤ a)
    (h : ofFun eps f (.fin a :: bps) lp rp = some r) (hw : PF.WF eps r) : PosPF r := by
  unfold ofFun at h
  split at h
  · rename_i b₀ b₁ bs bn hb hl
    dsimp only at h
    split_ifs at h with hif
    rw [Option.bind_eq_some_iff] at h
    obtain ⟨ss, h1, h2⟩ := h
    unfold pieces at h1
    split at h1
    · rename_i p q l hz
      rw [Option.bind_eq_some_iff] at h1
      obtain ⟨s, hs, h1⟩ := h1
      rw [Option.map_eq_some_iff] at h1
      obtain ⟨ss', hss, rfl⟩ := h1
      obtain ⟨i1, i2, i3⟩ := laterPieces_linked l q ss' hss
      have hp0 : p.at_ = .fin a := by
        cases hlr : (lp.getD (((Ext.fin a : Ext ℝ) :: bps).map fun _ => false)).zip (rp.getD (((Ext.fin a : Ext ℝ) :: bps).map fun _ => false)) with
        | nil => rw [hlr] at hz; simp at hz
        | cons u v =>
          rw [hlr, List.zipWith_cons_cons] at hz
          have := (List.cons.inj hz).1
          rw [← this]
      have hs' : s.isDirac = false ∧ s.hi = q.at_ ∧ s.lo = .fin a := by
        split_ifs at hs with hc
        · rcases hc with hc | hc <;> rw [hp0] at hc
          · exact absurd hc.symm (ninf_lt_extFin a).ne
          · exact absurd hc (extFin_lt_pinf a).ne
        · rw [Option.bind_eq_some_iff] at hs
          obtain ⟨a', ha', hs⟩ := hs
          rw [Option.bind_eq_some_iff] at hs
          obtain ⟨b, hb, hs⟩ := hs
          obtain ⟨j1, j2, j3⟩ := finPiece_eq hs
          exact ⟨j1, j3.trans (finite?_eq hb).symm, by rw [j2, ← finite?_eq ha', hp0]⟩
      refine pos_of h2 hw (by simpa [hs'.1] using i1) ?_ (by rw [hs'.2.2]; exact extFin_le.2 ha)
      rw [List.isChain_cons]
      exact ⟨fun t ht => by rw [i3 t ht, hs'.2.1], i2⟩
    · cases h1
  · cases h

theorem kind_pos {E : Env} {k : Kind} (hv : k.Valid) (hp : KindPos k) {l : PF ℝ} (h : k.build E = some l) (hw : PF.WF E.eps l) :
    PosPF l := by
  have key : ∀ {a : ℝ} {y : Seg ℝ} {ss : List (Seg ℝ)}, PF.addAll E.eps [] (y :: ss) = some l → 0 ≤ a → y.lo = .fin a →
      (∀ s ∈ y :: ss, s.isDirac = false) → ((y :: ss).IsChain fun s t => s.hi = t.lo) → PosPF l :=
    fun h h0 h1 h2 h3 => pos_of h hw h2 h3 (by rw [h1]; exact extFin_le.2 h0)
  cases k with
  | uniform a b =>
    rw [Kind.build, uniform] at h
    split_ifs at h
    exact key h hp rfl (by simp [Seg.isDirac]) (by simp)
  | trapezoidal a b c d =>
    obtain ⟨h1, h2, h3, h4⟩ := hv
    have h0 : 0 ≤ a := hp
    rw [Kind.build, trapezoidal] at h
    by_cases g0 : d + c - (b + a) = 0
    · rw [if_pos g0] at h; cases h
    rw [if_neg g0] at h
    dsimp only at h
    by_cases g1 : a < b <;> by_cases g2 : b < c <;> by_cases g3 : c < d <;>
      simp only [g1, g2, g3, if_true, if_false, List.append_nil, List.nil_append, List.cons_append] at h <;>
      first
      | exact absurd h4 (by linarith)
      | (refine key h ?_ rfl ?_ ?_ <;> clear h key hw <;>
          first
          | exact h0
          | exact h0.trans h1
          | exact (h0.trans h1).trans h2
          | (simp; done)
          | (simp [Seg.isDirac]; done)
          | (simp [Seg.lo, Seg.hi]; done)
          | (have : b = c := le_antisymm h2 (not_lt.1 g2); simp [Seg.lo, Seg.hi, this]))
  | chiSquare df =>
    rw [Kind.build, chiSquare] at h
    split_ifs at h <;> exact ofFun_pos (le_refl _) h hw
  | exponential a =>
    rw [Kind.build, exponential] at h
    exact key h (le_refl _) rfl (by simp [Seg.isDirac]) (by simp [Seg.lo, Seg.hi])
  | gamma a b =>
    rw [Kind.build, gamma] at h
    split_ifs at h <;> exact key h (le_refl _) rfl (by simp [Seg.isDirac]) (by simp [Seg.lo, Seg.hi])
  | beta a b =>
    rw [Kind.build, Standard.beta] at h
    split_ifs at h <;> exact key h (le_refl _) rfl (by simp [Seg.isDirac]) (by simp [Seg.lo, Seg.hi])
  | pareto a b =>
    rw [Kind.build, pareto] at h
    split_ifs at h; exact key h hv.2.le rfl (by simp [Seg.isDirac]) (by simp [Seg.lo, Seg.hi])
  | levy a b =>
    rw [Kind.build, levy] at h
    split_ifs at h; exact key h hp rfl (by simp [Seg.isDirac]) (by simp [Seg.lo, Seg.hi])
  | fDistr a b =>
    rw [Kind.build, fDistr] at h
    split_ifs at h <;> exact key h (le_refl _) rfl (by simp [Seg.isDirac]) (by simp [Seg.lo, Seg.hi])
  | weibull a b =>
    rw [Kind.build, weibull] at h
    split_ifs at h <;> exact ofFun_pos (le_refl _) h hw
  | frechet a b c =>
    rw [Kind.build, frechet] at h
    split_ifs at h; exact key h hp rfl (by simp [Seg.isDirac]) (by simp [Seg.lo, Seg.hi])
  | logLogistic a b =>
    rw [Kind.build, logLogistic] at h
    split_ifs at h <;> exact ofFun_pos (le_refl _) h hw
  | _ => exact hp.elim

end Pacal.Identity
