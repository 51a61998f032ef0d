import Verif.Identity.LemCov

/-!
Lemmas for `Verif.Identity.LemExact`: functions of a continuous variable have no atoms, and no gaps if the variable has none.
-/

namespace Pacal.Identity
open MeasureTheory ProbabilityTheory Standard Set Conv

/-! ### monotone images -/

theorem noHole_mono {l : PF ℝ} {T : Seg ℝ → Seg ℝ} {G : Ext ℝ → Ext ℝ} {A : Set (Ext ℝ)} (hG : MonotoneOn G A) (hA : ∀ s ∈ l, s.lo ∈ A)
    (hT : ∀ s ∈ l, (T s).lo = G s.lo ∧ (T s).hi = G s.hi) (h : l.NoHole) : PF.NoHole (l.map T) := by
  intro t ht
  obtain ⟨s, hs, rfl⟩ := List.mem_map.1 ht
  rw [(hT s hs).1]
  rcases h s hs with h1 | ⟨u, hu, e⟩
  · refine .inl fun v hv => ?_
    obtain ⟨w, hw, rfl⟩ := List.mem_map.1 hv
    rw [(hT w hw).1]
    exact hG (hA s hs) (hA w hw) (h1 w hw)
  · exact .inr ⟨T u, List.mem_map_of_mem hu, by rw [(hT u hu).2, e]⟩

theorem noHole_anti {l : PF ℝ} {T : Seg ℝ → Seg ℝ} {G : Ext ℝ → Ext ℝ} {A : Set (Ext ℝ)} (hG : AntitoneOn G A) (hA : ∀ s ∈ l, s.hi ∈ A)
    (hT : ∀ s ∈ l, (T s).lo = G s.hi ∧ (T s).hi = G s.lo) (h : l.NoHoleRight) : PF.NoHole (l.map T) := by
  intro t ht
  obtain ⟨s, hs, rfl⟩ := List.mem_map.1 ht
  rw [(hT s hs).1]
  rcases h s hs with h1 | ⟨u, hu, e⟩
  · refine .inl fun v hv => ?_
    obtain ⟨w, hw, rfl⟩ := List.mem_map.1 hv
    rw [(hT w hw).1]
    exact hG (hA w hw) (hA s hs) (h1 w hw)
  · exact .inr ⟨T u, List.mem_map_of_mem hu, by rw [(hT u hu).2, e]⟩

theorem mapAll_map {α β : Type} {T : α → Option β} {T' : α → β} : ∀ (l : List α), (∀ a ∈ l, T a = some (T' a)) → mapAll T l = some (l.map T')
  | [], _ => rfl
  | a :: l, h => by
    rw [mapAll, h a (by simp), mapAll_map l fun b hb => h b (List.mem_cons_of_mem _ hb)]
    rfl

/-- choosing the image of each piece -/
theorem loop_perm {eps : ℝ} {T : Seg ℝ → Option (Seg ℝ)} {l r : PF ℝ} {Q : Seg ℝ → Seg ℝ → Prop}
    (hT : ∀ s ∈ l, ∃ t, T s = some t ∧ t.isDirac = false ∧ Q s t) (h : PF.mapLoop eps T l = some r) :
    ∃ T' : Seg ℝ → Seg ℝ, r.Perm (l.map T') ∧ ContPF r ∧ ∀ s ∈ l, T s = some (T' s) ∧ Q s (T' s) := by
  have : ∀ s, ∃ t, s ∈ l → T s = some t ∧ t.isDirac = false ∧ Q s t := by
    intro s
    by_cases hs : s ∈ l
    · obtain ⟨t, ht⟩ := hT s hs
      exact ⟨t, fun _ => ht⟩
    · exact ⟨s, fun h => absurd h hs⟩
  choose T' hT' using this
  rw [PF.mapLoop, mapAll_map l fun s hs => (hT' s hs).1, Option.bind_some] at h
  have hc : ContPF (l.map T') := by
    intro t ht
    obtain ⟨s, hs, rfl⟩ := List.mem_map.1 ht
    exact (hT' s hs).2.1
  have hp : r.Perm (l.map T') := by simpa using addAll_perm _ [] r hc h
  exact ⟨T', hp, fun t ht => hc t (hp.mem_iff.1 ht), fun s hs => ⟨(hT' s hs).1, (hT' s hs).2.2⟩⟩

theorem loop_mono {eps : ℝ} {T : Seg ℝ → Option (Seg ℝ)} {l r : PF ℝ} {G : Ext ℝ → Ext ℝ} {A : Set (Ext ℝ)} (hG : MonotoneOn G A)
    (hA : ∀ s ∈ l, s.lo ∈ A ∧ s.hi ∈ A)
    (hT : ∀ s ∈ l, ∃ t, T s = some t ∧ t.isDirac = false ∧ (t.lo = G s.lo ∧ t.hi = G s.hi)) (h : PF.mapLoop eps T l = some r) :
    ContPF r ∧ (∀ B : Ext ℝ, (∀ s ∈ l, B ≤ G s.lo) → ∀ t ∈ r, B ≤ t.lo) ∧ (PF.WF eps r → Tidy l → Tidy r) := by
  obtain ⟨T', hp, hc, hT'⟩ := loop_perm hT h
  refine ⟨hc, fun B hB t ht => ?_, fun hw ht => ?_⟩
  · obtain ⟨s, hs, rfl⟩ := List.mem_map.1 (hp.mem_iff.1 ht)
    rw [(hT' s hs).2.1]; exact hB s hs
  · have h1 := noHole_perm hp (noHole_mono hG (fun s hs => (hA s hs).1) (fun s hs => (hT' s hs).2) ht.hole)
    refine tidy_of_cov hw ?_ hc (joined_of (ends_lt hw hc) h1)
    rintro rfl
    exact ht.ne (by simpa using hp.symm)

theorem loop_anti {eps : ℝ} {T : Seg ℝ → Option (Seg ℝ)} {l r : PF ℝ} {G : Ext ℝ → Ext ℝ} {A : Set (Ext ℝ)} (hG : AntitoneOn G A)
    (hA : ∀ s ∈ l, s.lo ∈ A ∧ s.hi ∈ A)
    (hT : ∀ s ∈ l, ∃ t, T s = some t ∧ t.isDirac = false ∧ (t.lo = G s.hi ∧ t.hi = G s.lo)) (h : PF.mapLoop eps T l = some r) :
    ContPF r ∧ (∀ B : Ext ℝ, (∀ s ∈ l, B ≤ G s.hi) → ∀ t ∈ r, B ≤ t.lo) ∧ (PF.WF eps r → Tidy l → Tidy r) := by
  obtain ⟨T', hp, hc, hT'⟩ := loop_perm hT h
  refine ⟨hc, fun B hB t ht => ?_, fun hw ht => ?_⟩
  · obtain ⟨s, hs, rfl⟩ := List.mem_map.1 (hp.mem_iff.1 ht)
    rw [(hT' s hs).2.1]; exact hB s hs
  · have h1 := noHole_perm hp (noHole_anti hG (fun s hs => (hA s hs).2) (fun s hs => (hT' s hs).2) ht.holeRight)
    refine tidy_of_cov hw ?_ hc (joined_of (ends_lt hw hc) h1)
    rintro rfl
    exact ht.ne (by simpa using hp.symm)

/-! ### exponential, arc tangent, logarithm -/

theorem split_within {eps : ℝ} (he : 0 ≤ eps) {ps : List ℝ} (hp : ps.Pairwise (· < ·)) {l r : PF ℝ} (hw : PF.WF eps l)
    (h : PF.splitByPoints eps l ps = some r) : PF.WF eps r ∧ (∀ t ∈ r, ∃ s ∈ l, s.lo ≤ t.lo) ∧
      (∀ p ∈ ps, ∀ s ∈ r, ¬ (s.lo < .fin p ∧ .fin p < s.hi)) := by
  obtain ⟨r', e, h1, -, -, -, h2⟩ := C04_split he ps hp l hw
  obtain rfl : r = r' := by rw [h] at e; exact Option.some.inj e
  refine ⟨h1, fun t ht => ?_, h2⟩
  obtain ⟨s, hs, -, h3, -⟩ := C04_pieces he ps hp l hw r h t ht
  exact ⟨s, hs, h3⟩

theorem comp_shape {eps : ℝ} (he : 0 ≤ eps) {G : Ext ℝ → Ext ℝ} {ginv dginv : ℝ → ℝ} {pole : Bool} {mass : Seg ℝ → ℝ} {l r : PF ℝ}
    {A : Set (Ext ℝ)} (hw : PF.WF eps l) (hc : ContPF l) (hG : StrictMonoOn G A)
    (hk : ∀ l', PF.splitByPoints eps l [0] = some l' → ∀ s ∈ l', (s.lo ∈ A ∧ s.hi ∈ A) ∧ SignOK G s.lo s.hi)
    (h : PF.copyComposition eps l G ginv dginv pole mass = some r) :
    ContPF r ∧ (∀ B : Ext ℝ, (∀ x ∈ A, B ≤ G x) → ∀ t ∈ r, B ≤ t.lo) ∧ (PF.WF eps r → Tidy l → Tidy r) := by
  obtain ⟨l', e1, e2⟩ := Option.bind_eq_some_iff.1 h
  have hp0 : [(0 : ℝ)].Pairwise (· < ·) := by simp
  obtain ⟨w1, -, -⟩ := split_within he hp0 hw e1
  obtain ⟨-, c1⟩ := split_cov he hp0 hw hc e1
  obtain ⟨h1, h2, h3⟩ := loop_mono (l := l') hG.monotoneOn (fun s hs => (hk l' e1 s hs).1) (fun s hs => by
    obtain ⟨⟨a1, a2⟩, k⟩ := hk l' e1 s hs
    obtain ⟨t, b1, b2, b3, b4, -⟩ := comp_incr (ginv := ginv) (dginv := dginv) (pole := pole) (mass := mass) (c1 s hs)
      (hG a1 a2 (ends_lt w1 c1 s hs)) k
    exact ⟨t, b1, b2, b3, b4⟩) e2
  refine ⟨h1, fun B hB => h2 B fun s hs => hB _ (hk l' e1 s hs).1.1, fun w t => h3 w (split_tidy he hp0 hw t e1)⟩

theorem mono_of {lo hi : Ext ℝ} {G : Ext ℝ → Ext ℝ} {g h h' : ℝ → ℝ} (H : MonoPair lo hi G g h h') (hlt : lo < hi) (hG : G lo < G hi) :
    StrictMonoOn G (Icc lo hi) := by
  rcases H.mono with h | h
  · exact h
  · exact absurd (hG.trans (h ⟨le_rfl, hlt.le⟩ ⟨hlt.le, le_rfl⟩ hlt)) (lt_irrefl _)

theorem line_lt : (Ext.ninf : Ext ℝ) < .pinf := (ninf_lt_extFin 0).trans (extFin_lt_pinf 0)

theorem piece_line {eps : ℝ} {l : PF ℝ} (hw : PF.WF eps l) (hc : ContPF l) {s : Seg ℝ} (hs : s ∈ l) :
    s.lo < s.hi ∧ (s.lo = .ninf → s.hi ≠ .pinf) := by
  refine ⟨ends_lt hw hc s hs, ?_⟩
  have := hc s hs
  cases s <;> simp [Seg.lo, Seg.hi, Seg.isDirac, Ext.fin, Ext.pinf, Ext.ninf] at this ⊢

theorem exp_shape {eps : ℝ} (he : 0 ≤ eps) {mass : Seg ℝ → ℝ} {l r : PF ℝ} (hw : PF.WF eps l) (hc : ContPF l)
    (h : expDistr eps mass l = some r) : ContPF r ∧ PosPF r ∧ (PF.WF eps r → Tidy l → Tidy r) := by
  have hp0 : [(0 : ℝ)].Pairwise (· < ·) := by simp
  obtain ⟨h1, h2, h3⟩ := comp_shape (A := Icc .ninf .pinf) he hw hc
    (mono_of mono_exp line_lt (extFin_lt_pinf 0)) (fun l' e s hs => ⟨⟨⟨ninf_le_ext _, ext_le_pinf _⟩, ⟨ninf_le_ext _, ext_le_pinf _⟩⟩,
      sign_exp (piece_line (split_within he hp0 hw e).1 (split_cov he hp0 hw hc e).2 hs)⟩) h
  refine ⟨h1, h2 _ fun x _ => ?_, h3⟩
  rcases ext_trich x with rfl | ⟨a, rfl⟩ | rfl
  · exact le_refl _
  · exact extFin_le.2 (Real.exp_pos a).le
  · exact (extFin_lt_pinf 0).le

theorem atan_shape {eps : ℝ} (he : 0 ≤ eps) {mass : Seg ℝ → ℝ} {l r : PF ℝ} (hw : PF.WF eps l) (hc : ContPF l)
    (h : atanDistr eps mass l = some r) : ContPF r ∧ (PosPF l → PosPF r) ∧ (PF.WF eps r → Tidy l → Tidy r) := by
  have hp0 : [(0 : ℝ)].Pairwise (· < ·) := by simp
  have hm := mono_of mono_atan line_lt (extFin_lt.2 (by have := Real.pi_pos; linarith))
  obtain ⟨h1, -, h3⟩ := comp_shape (A := Icc .ninf .pinf) he hw hc hm
    (fun l' e s hs => ⟨⟨⟨ninf_le_ext _, ext_le_pinf _⟩, ⟨ninf_le_ext _, ext_le_pinf _⟩⟩, sign_bounded _ _⟩) h
  refine ⟨h1, fun hp => ?_, h3⟩
  obtain ⟨-, h2, -⟩ := comp_shape (A := Ici (.fin 0)) he hw hc (hm.mono fun x _ => ⟨ninf_le_ext _, ext_le_pinf _⟩)
    (fun l' e s hs => by
      obtain ⟨w, i1, -⟩ := split_within he hp0 hw e
      obtain ⟨t, ht, hle⟩ := i1 s hs
      have := (hp t ht).trans hle
      exact ⟨⟨this, this.trans (Seg.lo_le_hi (w.seg s hs))⟩, sign_bounded _ _⟩) h
  refine h2 _ fun x hx => ?_
  rcases ext_trich x with rfl | ⟨a, rfl⟩ | rfl
  · exact absurd hx (not_le_ninf 0)
  · exact extFin_le.2 (by rw [← Real.arctan_zero]; exact Real.arctan_strictMono.monotone (extFin_le.1 hx))
  · exact extFin_le.2 (by have := Real.pi_pos; linarith)

theorem log_shape {eps : ℝ} (he : 0 ≤ eps) {mass : Seg ℝ → ℝ} {l r : PF ℝ} (hw : PF.WF eps l) (hc : ContPF l) (hp : PosPF l)
    (h : logDistr eps mass true l = some r) : ContPF r ∧ (PF.WF eps r → Tidy l → Tidy r) := by
  have hp0 : [(0 : ℝ)].Pairwise (· < ·) := by simp
  have hps : [(0.5 : ℝ), 1, 2].Pairwise (· < ·) := by norm_num
  rw [logDistr, if_pos rfl] at h
  obtain ⟨l₁, e1, e2⟩ := Option.bind_eq_some_iff.1 h
  obtain ⟨w1, i1, k1⟩ := split_within he hps hw e1
  obtain ⟨-, c1⟩ := split_cov he hps hw hc e1
  obtain ⟨h1, -, h3⟩ := comp_shape (A := Icc (.fin 0) .pinf) he w1 c1
    (mono_of mono_log (extFin_lt_pinf 0) (by rw [logExt_zero, logExt_pinf]; exact line_lt))
    (fun l' e s hs => by
      obtain ⟨w, i2, -⟩ := split_within he hp0 w1 e
      obtain ⟨-, c2⟩ := split_cov he hp0 w1 c1 e
      obtain ⟨t, ht, hle⟩ := i2 s hs
      obtain ⟨u, hu, hle'⟩ := i1 t ht
      have h0 := (hp u hu).trans (hle'.trans hle)
      refine ⟨⟨⟨h0, ext_le_pinf _⟩, h0.trans (Seg.lo_le_hi (w.seg s hs)), ext_le_pinf _⟩, sign_log (ends_lt w c2 s hs) h0 fun x hx hlt => ?_⟩
      obtain ⟨t', ht', -, g1, g2⟩ := C04_pieces he [0] hp0 l₁ w1 l' e s hs
      exact k1 x hx t' ht' ⟨g1.trans_lt hlt.1, hlt.2.trans_le g2⟩) e2
  exact ⟨h1, fun w t => h3 w (split_tidy he hps hw t e1)⟩

/-! ### reciprocal -/

noncomputable def recipExt : Ext ℝ → Ext ℝ
  | (none : Ext ℝ) => .fin 0
  | (some none : Ext ℝ) => .fin 0
  | (some (some x) : Ext ℝ) => if x = 0 then .pinf else .fin (1 / x)

theorem recip_fin {x : ℝ} (h : x ≠ 0) : recipExt (.fin x) = .fin (1 / x) := if_neg h
theorem recip_zero : recipExt (.fin 0) = .pinf := if_pos rfl
theorem recip_pinf : recipExt .pinf = .fin 0 := rfl

theorem recip_anti : AntitoneOn recipExt (Ici (.fin 0)) := by
  intro x hx y hy h
  rcases ext_trich x with rfl | ⟨a, rfl⟩ | rfl
  · exact absurd hx (not_le_ninf 0)
  · rcases ext_trich y with rfl | ⟨b, rfl⟩ | rfl
    · exact absurd hy (not_le_ninf 0)
    · have ha := extFin_le.1 hx
      have hab := extFin_le.1 h
      rcases ha.eq_or_lt with rfl | ha
      · rw [recip_zero]; exact ext_le_pinf _
      · rw [recip_fin ha.ne', recip_fin (ha.trans_le hab).ne']
        exact extFin_le.2 (one_div_le_one_div_of_le ha hab)
    · rw [recip_pinf]
      have ha := extFin_le.1 hx
      rcases ha.eq_or_lt with rfl | ha
      · rw [recip_zero]; exact ext_le_pinf _
      · rw [recip_fin ha.ne']; exact extFin_le.2 (one_div_pos.2 ha).le
  · rcases ext_trich y with rfl | ⟨b, rfl⟩ | rfl
    · exact absurd hy (not_le_ninf 0)
    · exact absurd h (not_le.2 (extFin_lt_pinf _))
    · exact le_refl _

theorem recip_nonneg {x : Ext ℝ} (h : .fin 0 ≤ x) : .fin 0 ≤ recipExt x := by
  rcases ext_trich x with rfl | ⟨a, rfl⟩ | rfl
  · exact le_refl _
  · have ha := extFin_le.1 h
    rcases ha.eq_or_lt with rfl | ha
    · rw [recip_zero]; exact ext_le_pinf _
    · rw [recip_fin ha.ne']; exact extFin_le.2 (one_div_pos.2 ha).le
  · exact le_refl _

theorem finInverse_ends {a b : ℝ} (f : ℝ → ℝ) (ha : 0 ≤ a) (hab : a < b) : (Seg.finInverse a b f).isDirac = false ∧
    (Seg.finInverse a b f).lo = recipExt (.fin b) ∧ (Seg.finInverse a b f).hi = recipExt (.fin a) := by
  have hb : 0 < b := ha.trans_lt hab
  unfold Seg.finInverse
  rcases ha.eq_or_lt with rfl | ha
  · rw [if_pos rfl, if_neg (not_lt.2 (one_div_pos.2 hb).le), recip_zero, recip_fin hb.ne']
    exact ⟨rfl, rfl, rfl⟩
  · rw [if_neg ha.ne', if_neg hb.ne', if_neg (not_le.2 (one_div_lt_one_div_of_lt ha hab)), recip_fin ha.ne', recip_fin hb.ne']
    exact ⟨rfl, rfl, rfl⟩

theorem inverse_ends {s : Seg ℝ} (hs : s.lo < s.hi) (hd : s.isDirac = false) (h0 : .fin 0 ≤ s.lo) :
    ∃ t, Seg.probInverse false s = some t ∧ t.isDirac = false ∧ (t.lo = recipExt s.hi ∧ t.hi = recipExt s.lo) := by
  cases s with
  | fin p a b f => exact ⟨_, rfl, finInverse_ends f (extFin_le.1 h0) (extFin_lt.1 hs)⟩
  | const a b c => exact ⟨_, rfl, finInverse_ends _ (extFin_le.1 h0) (extFin_lt.1 hs)⟩
  | minf b f => exact absurd h0 (not_le_ninf 0)
  | pinf a f =>
    have ha := extFin_le.1 h0
    simp only [Seg.probInverse]
    rcases ha.eq_or_lt with rfl | ha
    · rw [if_pos rfl]
      exact ⟨_, rfl, rfl, rfl, recip_zero.symm⟩
    · rw [if_neg ha.ne', if_neg (not_le.2 (one_div_pos.2 ha))]
      exact ⟨_, rfl, rfl, rfl, (recip_fin ha.ne').symm⟩
  | dirac a m => simp [Seg.isDirac] at hd

theorem inv_shape {eps : ℝ} (he : 0 ≤ eps) {l r : PF ℝ} (hw : PF.WF eps l) (hc : ContPF l) (hp : PosPF l)
    (h : PF.copyProbInverse eps l false = some r) : ContPF r ∧ PosPF r ∧ (PF.WF eps r → Tidy l → Tidy r) := by
  have hp0 : [(0 : ℝ)].Pairwise (· < ·) := by simp
  obtain ⟨l', e1, e2⟩ := Option.bind_eq_some_iff.1 h
  obtain ⟨w1, i1, -⟩ := split_within he hp0 hw e1
  obtain ⟨-, c1⟩ := split_cov he hp0 hw hc e1
  have h0 : ∀ s ∈ l', .fin 0 ≤ s.lo ∧ .fin 0 ≤ s.hi := by
    intro s hs
    obtain ⟨t, ht, hle⟩ := i1 s hs
    have := (hp t ht).trans hle
    exact ⟨this, this.trans (Seg.lo_le_hi (w1.seg s hs))⟩
  obtain ⟨h1, h2, h3⟩ := loop_anti recip_anti (fun s hs => ⟨(h0 s hs).1, (h0 s hs).2⟩)
    (fun s hs => inverse_ends (ends_lt w1 c1 s hs) (c1 s hs) (h0 s hs).1) e2
  exact ⟨h1, h2 _ fun s hs => recip_nonneg (h0 s hs).2, fun w t => h3 w (split_tidy he hp0 hw t e1)⟩

/-! ### absolute value and square -/

theorem foldLoop_perm {eps : ℝ} {T : Seg ℝ → Option (Seg ℝ)} {T' : Seg ℝ → Seg ℝ} : ∀ (l : PF ℝ) (st st' : PF ℝ × PF ℝ),
    (∀ s ∈ l, T s = some (T' s) ∧ (T' s).isDirac = false) → PF.foldLoop eps T l st = some st' →
    st'.1.Perm ((l.filter fun s => decide (s.lo ≥ .fin 0)).map T' ++ st.1) ∧
      st'.2.Perm ((l.filter fun s => !decide (s.lo ≥ .fin 0)).map T' ++ st.2)
  | [], (L, R), st', _, h => by cases h; simp
  | s :: l, (L, R), st', hT, h => by
    rw [PF.foldLoop, (hT s (by simp)).1, Option.bind_some] at h
    by_cases hs : s.lo ≥ .fin 0
    · rw [if_pos hs, Option.bind_eq_some_iff] at h
      obtain ⟨L', h1, h2⟩ := h
      have p1 := addSegment_perm (hT s (by simp)).2 h1
      obtain ⟨p2, p3⟩ := foldLoop_perm l (L', R) st' (fun t ht => hT t (List.mem_cons_of_mem _ ht)) h2
      rw [List.filter_cons_of_pos (by simpa using hs), List.filter_cons_of_neg (by simpa using hs)]
      exact ⟨p2.trans ((List.Perm.append_left _ p1).trans List.perm_middle), p3⟩
    · rw [if_neg hs, Option.bind_eq_some_iff] at h
      obtain ⟨R', h1, h2⟩ := h
      have p1 := addSegment_perm (hT s (by simp)).2 h1
      obtain ⟨p2, p3⟩ := foldLoop_perm l (L, R') st' (fun t ht => hT t (List.mem_cons_of_mem _ ht)) h2
      rw [List.filter_cons_of_neg (by simpa using hs), List.filter_cons_of_pos (by simpa using hs)]
      exact ⟨p2, p3.trans ((List.Perm.append_left _ p1).trans List.perm_middle)⟩

theorem joined_union {A B : Set (Ext ℝ)} (hA : Joined A) (hB : Joined B) (h : A.Nonempty → B.Nonempty → ∃ c, c ∈ A ∧ c ∈ B) :
    Joined (A ∪ B) := by
  rintro x y z (hx | hx) (hy | hy) h1 h2
  · exact .inl (hA x y z hx hy h1 h2)
  · obtain ⟨c, c1, c2⟩ := h ⟨x, hx⟩ ⟨y, hy⟩
    rcases le_total z c with h3 | h3
    · exact .inl (hA x c z hx c1 h1 h3)
    · exact .inr (hB c y z c2 hy h3 h2)
  · obtain ⟨c, c1, c2⟩ := h ⟨y, hy⟩ ⟨x, hx⟩
    rcases le_total z c with h3 | h3
    · exact .inr (hB x c z hx c2 h1 h3)
    · exact .inl (hA c y z c1 hy h3 h2)
  · exact .inr (hB x y z hx hy h1 h2)

/-- the two halves of the image -/
theorem fold_shape {eps : ℝ} (he : 0 ≤ eps) {g h h' : ℝ → ℝ} (H : FoldOK g h h') {R L : (ℝ → ℝ) → ℝ → ℝ} {l l' P N : PF ℝ}
    (hw : PF.WF eps l) (hc : ContPF l) (e1 : PF.splitByPoints eps l [0] = some l')
    (e2 : PF.foldLoop eps (Seg.foldComp g R L) l' ([], []) = some (P, N)) (wP : PF.WF eps P) (wN : PF.WF eps N) :
    ContPF P ∧ ContPF N ∧ (∀ s ∈ P, .fin 0 ≤ s.lo) ∧ (∀ s ∈ N, .fin 0 ≤ s.lo) ∧ (Tidy l → Joined (cov P ∪ cov N) ∧ (P ≠ [] ∨ N ≠ [])) := by
  have hp0 : [(0 : ℝ)].Pairwise (· < ·) := by simp
  obtain ⟨w1, -, k1⟩ := split_within he hp0 hw e1
  obtain ⟨-, c1⟩ := split_cov he hp0 hw hc e1
  have hneg : ∀ s ∈ l', ¬ s.lo ≥ .fin 0 → s.lo < .fin 0 ∧ s.hi ≤ .fin 0 := by
    intro s hs h
    have h := not_le.1 h
    exact ⟨h, not_lt.1 fun h2 => k1 0 (by simp) s hs ⟨h, h2⟩⟩
  have hT : ∀ s, ∃ t, s ∈ l' → (Seg.foldComp g R L s = some t ∧ t.isDirac = false ∧
      (s.lo ≥ .fin 0 → t.lo = foldEnd g s.lo ∧ t.hi = foldEnd g s.hi) ∧
      (¬ s.lo ≥ .fin 0 → t.lo = foldEnd g s.hi ∧ t.hi = foldEnd g s.lo)) := by
    intro s
    by_cases hs : s ∈ l'
    · by_cases h0 : s.lo ≥ .fin 0
      · obtain ⟨t, h1, h2, -⟩ := foldComp_right (g := g) (R := R) (L := L) (w1.seg s hs) h0
        exact ⟨t, fun _ => ⟨h1, h2.dirac.trans (c1 s hs), fun _ => ⟨h2.lo, h2.hi⟩, fun h => absurd h0 h⟩⟩
      · obtain ⟨t, h1, h2, -⟩ := foldComp_left (g := g) (R := R) (L := L) (w1.seg s hs) (hneg s hs h0).1 (hneg s hs h0).2
        exact ⟨t, fun _ => ⟨h1, h2.dirac.trans (c1 s hs), fun h => absurd h h0, fun _ => ⟨h2.lo, h2.hi⟩⟩⟩
    · exact ⟨s, fun h => absurd h hs⟩
  choose T' hT' using hT
  obtain ⟨pP, pN⟩ := foldLoop_perm l' ([], []) (P, N) (fun s hs => ⟨(hT' s hs).1, (hT' s hs).2.1⟩) e2
  simp only [List.append_nil] at pP pN
  set lp := l'.filter fun s => decide (s.lo ≥ .fin 0) with hlp
  set ln := l'.filter fun s => !decide (s.lo ≥ .fin 0) with hln
  have mp : ∀ s ∈ lp, s ∈ l' ∧ s.lo ≥ .fin 0 := by intro s hs; simpa [hlp] using hs
  have mn : ∀ s ∈ ln, s ∈ l' ∧ ¬ s.lo ≥ .fin 0 := by intro s hs; simpa [hln] using hs
  have cP : ContPF P := by
    intro t ht
    obtain ⟨s, hs, rfl⟩ := List.mem_map.1 (pP.mem_iff.1 ht)
    exact (hT' s (mp s hs).1).2.1
  have cN : ContPF N := by
    intro t ht
    obtain ⟨s, hs, rfl⟩ := List.mem_map.1 (pN.mem_iff.1 ht)
    exact (hT' s (mn s hs).1).2.1
  refine ⟨cP, cN, fun t ht => ?_, fun t ht => ?_, fun ht => ?_⟩
  · obtain ⟨s, hs, rfl⟩ := List.mem_map.1 (pP.mem_iff.1 ht)
    rw [((hT' s (mp s hs).1).2.2.1 (mp s hs).2).1]
    exact H.end_nonneg _
  · obtain ⟨s, hs, rfl⟩ := List.mem_map.1 (pN.mem_iff.1 ht)
    rw [((hT' s (mn s hs).1).2.2.2 (mn s hs).2).1]
    exact H.end_nonneg _
  have ht' := split_tidy he hp0 hw ht e1
  have hhi : ∀ s ∈ lp, .fin 0 ≤ s.hi := fun s hs => (mp s hs).2.trans (ends_lt w1 c1 s (mp s hs).1).le
  -- the right half
  have nP : PF.NoHole lp := by
    intro s hs
    obtain ⟨m1, m2⟩ := mp s hs
    by_cases h0 : s.lo = .fin 0
    · exact .inl fun t ht => by rw [h0]; exact (mp t ht).2
    rcases ht'.hole s m1 with h1 | ⟨u, hu, e⟩
    · exact .inl fun t ht => h1 t (mp t ht).1
    · refine .inr ⟨u, List.mem_filter.2 ⟨hu, ?_⟩, e⟩
      simp only [decide_eq_true_eq]
      by_contra hlt
      exact h0 (le_antisymm (e ▸ (hneg u hu hlt).2) m2)
  have nN : PF.NoHoleRight ln := by
    intro s hs
    obtain ⟨m1, m2⟩ := mn s hs
    by_cases h0 : s.hi = .fin 0
    · exact .inl fun t ht => by rw [h0]; exact (hneg t (mn t ht).1 (mn t ht).2).2
    rcases ht'.holeRight s m1 with h1 | ⟨u, hu, e⟩
    · exact .inl fun t ht => h1 t (mn t ht).1
    · refine .inr ⟨u, List.mem_filter.2 ⟨hu, ?_⟩, e⟩
      simp only [Bool.not_eq_true', decide_eq_false_iff_not]
      intro hle
      exact h0 (le_antisymm (hneg s m1 m2).2 (e ▸ hle))
  have jP : Joined (cov P) := by
    refine joined_of (ends_lt wP cP) (noHole_perm pP (noHole_mono (G := foldEnd g) (A := Ici (.fin 0))
      (fun x hx y _ hxy => H.end_mono hx hxy) (fun s hs => (mp s hs).2) (fun s hs => (hT' s (mp s hs).1).2.2.1 (mp s hs).2) nP))
  have jN : Joined (cov N) := by
    refine joined_of (ends_lt wN cN) (noHole_perm pN (noHole_anti (G := foldEnd g) (A := Iic (.fin 0))
      (fun x hx y hy hxy => ?_) (fun s hs => (hneg s (mn s hs).1 (mn s hs).2).2) (fun s hs => (hT' s (mn s hs).1).2.2.2 (mn s hs).2) nN))
    rw [← H.foldEnd_neg y, ← H.foldEnd_neg x]
    exact H.end_mono (FoldOK.negEnd_nonneg.2 hy) (FoldOK.negEnd_le hxy)
  refine ⟨joined_union jP jN fun hP hN => ?_, ?_⟩
  · -- both halves contain the image of 0
    rw [cov_perm pP, cov_ne (fun t ht => ends_lt wP cP t (pP.mem_iff.2 ht))] at hP
    rw [cov_perm pN, cov_ne (fun t ht => ends_lt wN cN t (pN.mem_iff.2 ht))] at hN
    have hP' : lp ≠ [] := fun e => hP (by rw [e]; rfl)
    have hN' : ln ≠ [] := fun e => hN (by rw [e]; rfl)
    obtain ⟨s, hs⟩ := List.exists_mem_of_ne_nil _ hP'
    obtain ⟨v, hv⟩ := List.exists_mem_of_ne_nil _ hN'
    obtain ⟨u, hu, hmin⟩ := Set.exists_min_image {u | u ∈ lp} (fun u => u.lo) (List.finite_toSet lp) ⟨s, hs⟩
    have hu : u ∈ lp := hu
    rcases ht'.hole u (mp u hu).1 with h1 | ⟨w, hw', e⟩
    · exact absurd ((mp u hu).2.trans (h1 v (mn v hv).1)) (mn v hv).2
    · have hwn : ¬ w.lo ≥ .fin 0 := by
        intro hle
        have h2 : w ∈ lp := List.mem_filter.2 ⟨hw', by simpa using hle⟩
        have := hmin w h2
        exact absurd (ends_lt w1 c1 w hw') (not_lt.2 (e ▸ this))
      have hwl : w ∈ ln := List.mem_filter.2 ⟨hw', by simpa using hwn⟩
      have h0 : u.lo = .fin 0 := le_antisymm (e ▸ (hneg w hw' hwn).2) (mp u hu).2
      refine ⟨foldEnd g (.fin 0), ⟨T' u, pP.mem_iff.2 (List.mem_map_of_mem hu), ?_, ?_⟩, ⟨T' w, pN.mem_iff.2 (List.mem_map_of_mem hwl), ?_, ?_⟩⟩
      · rw [((hT' u (mp u hu).1).2.2.1 (mp u hu).2).1, h0]
      · rw [((hT' u (mp u hu).1).2.2.1 (mp u hu).2).2]
        exact H.end_mono le_rfl (hhi u hu)
      · rw [((hT' w hw').2.2.2 hwn).1, e, h0]
      · rw [((hT' w hw').2.2.2 hwn).2, ← H.foldEnd_neg w.lo]
        exact H.end_mono le_rfl (FoldOK.negEnd_nonneg.2 (hneg w hw' hwn).1.le)
  · obtain ⟨s, hs⟩ := List.exists_mem_of_ne_nil _ ht'.ne
    by_cases h0 : s.lo ≥ .fin 0
    · left
      rintro rfl
      have : T' s ∈ ([] : List (Seg ℝ)) := pP.mem_iff.2 (List.mem_map_of_mem (List.mem_filter.2 ⟨hs, by simpa using h0⟩))
      simp at this
    · right
      rintro rfl
      have : T' s ∈ ([] : List (Seg ℝ)) := pN.mem_iff.2 (List.mem_map_of_mem (List.mem_filter.2 ⟨hs, by simpa using h0⟩))
      simp at this

theorem pos_cov {l : PF ℝ} (h : ∀ s ∈ l, s.lo < s.hi) : PosPF l ↔ cov l ⊆ Ici (.fin 0) := by
  constructor
  · rintro hp x ⟨s, hs, h1, -⟩
    exact (hp s hs).trans h1
  · intro hp s hs
    exact hp ⟨s, hs, le_rfl, (h s hs).le⟩

/-- the sum of the two halves -/
theorem fold_add {eps : ℝ} (he : 0 ≤ eps) {P N r : PF ℝ} (wP : PF.WF eps P) (wN : PF.WF eps N) (cP : ContPF P) (cN : ContPF N)
    (pP : ∀ s ∈ P, .fin 0 ≤ s.lo) (pN : ∀ s ∈ N, .fin 0 ≤ s.lo) (h : PF.operation eps (fun x y => x + y) P N = some r)
    (wr : PF.WF eps r) : ContPF r ∧ PosPF r ∧ (Joined (cov P ∪ cov N) ∧ (P ≠ [] ∨ N ≠ []) → Tidy r) := by
  obtain ⟨h1, h2⟩ := op_cov he wP wN cP cN h
  refine ⟨h2, ?_, fun ⟨hj, hne⟩ => tidy_of_cov wr ?_ h2 (h1 ▸ hj)⟩
  · rw [pos_cov (ends_lt wr h2), h1]
    exact union_subset ((pos_cov (ends_lt wP cP)).1 pP) ((pos_cov (ends_lt wN cN)).1 pN)
  · rw [← cov_ne (ends_lt wr h2), h1, union_nonempty, cov_ne (ends_lt wP cP), cov_ne (ends_lt wN cN)]
    exact hne

theorem abs_shape {eps : ℝ} (he : 0 ≤ eps) {l r : PF ℝ} (hw : PF.WF eps l) (hd : PF.Dens l) (hc : ContPF l)
    (h : PF.copyAbsComposition eps l = some r) (wr : PF.WF eps r) : ContPF r ∧ PosPF r ∧ (Tidy l → Tidy r) := by
  obtain ⟨l', P, N, e1, e2, wP, wN, -⟩ := fold_main he abs_fold
    (R := fun f y => f |y| * |(1 : ℝ)|) (L := fun f y => f (-|y|) * |(1 : ℝ)|)
    (fun f y hy => by rw [abs_of_pos hy]) (fun f y hy => by rw [abs_of_pos hy]) hw hd (.of_continuous hc)
  obtain ⟨cP, cN, pP, pN, hj⟩ := fold_shape he abs_fold hw hc e1 e2 wP wN
  rw [PF.copyAbsComposition, e1, Option.bind_some, Seg.absComposition, e2, Option.bind_some, Option.bind_eq_some_iff] at h
  obtain ⟨P', e3, h⟩ := h
  have hps := getBreaks_finites N
  obtain ⟨wP', -, -⟩ := split_within he hps wP e3
  obtain ⟨v1, cP'⟩ := split_cov he hps wP cP e3
  have pP' : ∀ s ∈ P', .fin 0 ≤ s.lo := by
    refine (pos_cov (ends_lt wP' cP')).2 ?_
    rw [v1]; exact (pos_cov (ends_lt wP cP)).1 pP
  obtain ⟨h1, h2, h3⟩ := fold_add he wP' wN cP' cN pP' pN h wr
  refine ⟨h1, h2, fun ht => h3 ⟨by rw [v1]; exact (hj ht).1, ?_⟩⟩
  rw [← cov_ne (ends_lt wP' cP'), v1, cov_ne (ends_lt wP cP)]
  exact (hj ht).2

theorem square_shape {eps : ℝ} (he : 0 ≤ eps) {l r : PF ℝ} (hw : PF.WF eps l) (hd : PF.Dens l) (hc : ContPF l)
    (h : PF.copySquareComposition eps l = some r) (wr : PF.WF eps r) : ContPF r ∧ PosPF r ∧ (Tidy l → Tidy r) := by
  obtain ⟨l', P, N, e1, e2, wP, wN, -⟩ := fold_main he square_fold
    (R := fun f y => f (y ^ (0.5 : ℝ)) * |0.5 / √y|) (L := fun f y => f (-(y ^ (0.5 : ℝ))) * |0.5 / √y|)
    (fun f y hy => rfl) (fun f y hy => rfl) hw hd (.of_continuous hc)
  obtain ⟨cP, cN, pP, pN, hj⟩ := fold_shape he square_fold hw hc e1 e2 wP wN
  rw [PF.copySquareComposition, e1, Option.bind_some, Seg.squareComposition, e2, Option.bind_some] at h
  by_cases h0 : N.length = 0
  · rw [if_pos h0] at h
    cases h
    rw [List.length_eq_zero_iff] at h0
    subst h0
    refine ⟨cP, pP, fun ht => tidy_of_cov wr ?_ cP ?_⟩
    · simpa using (hj ht).2
    · simpa [cov_nil] using (hj ht).1
  rw [if_neg h0] at h
  by_cases h1 : P.length = 0
  · rw [if_pos h1] at h
    cases h
    rw [List.length_eq_zero_iff] at h1
    subst h1
    refine ⟨cN, pN, fun ht => tidy_of_cov wr ?_ cN ?_⟩
    · simpa using (hj ht).2
    · simpa [cov_nil] using (hj ht).1
  rw [if_neg h1] at h
  obtain ⟨h2, h3, h4⟩ := fold_add he wP wN cP cN pP pN h wr
  exact ⟨h2, h3, fun ht => h4 (hj ht)⟩

end Pacal.Identity
