import Verif.Conv.Model
import Verif.Push.Map
import Verif.Distr.DiscreteLemmas

/-! The pieces between consecutive break points, assembled by `addSegment`, have the measure with the density of which
they are the restrictions. -/

namespace Pacal
namespace Conv
open MeasureTheory Set

/-- the open interval between two ends -/
def interE (a b : Ext ℝ) : Set ℝ := {x | a < .fin x ∧ .fin x < b}

theorem interE_measurable (a b : Ext ℝ) : MeasurableSet (interE a b) := by
  have h : ∀ x y : ℝ, x ≤ y → Ext.fin x ≤ Ext.fin y := fun x y h => by simpa [Ext.fin] using h
  refine OrdConnected.measurableSet ⟨fun x hx y hy z hz => ?_⟩
  exact ⟨lt_of_lt_of_le hx.1 (h _ _ hz.1), lt_of_le_of_lt (h _ _ hz.2) hy.2⟩

/-- the point at which the list of pairs is computed -/
noncomputable def mid (a b : Ext ℝ) : ℝ :=
  match a, b with
  | none, some (some b) => b - 1
  | some (some a), some none => a + 1
  | some (some a), some (some b) => (a + b) / 2
  | _, _ => 0

theorem mid_mem {a b : Ext ℝ} (h : a < b) : ¬ (a = .ninf ∧ b = .pinf) → mid a b ∈ interE a b := by
  intro hn
  have hf : ∀ x y : ℝ, Ext.fin x < Ext.fin y ↔ x < y := fun x y => by simp [Ext.fin]
  rcases a with _ | _ | a <;> rcases b with _ | _ | b
  · exact absurd h (lt_irrefl _)
  · exact absurd ⟨rfl, rfl⟩ hn
  · exact ⟨WithBot.bot_lt_coe _, (hf (b - 1) b).2 (by linarith)⟩
  · exact absurd h (not_lt.2 bot_le)
  · exact absurd h (lt_irrefl _)
  · exact absurd h (not_lt.2 (WithBot.coe_le_coe.2 le_top))
  · exact absurd h (not_lt.2 bot_le)
  · exact ⟨(hf a (a + 1)).2 (by linarith), WithBot.coe_lt_coe.2 (WithTop.coe_lt_top _)⟩
  · have h' : a < b := (hf a b).1 h
    exact ⟨(hf a ((a + b) / 2)).2 (by linarith), (hf ((a + b) / 2) b).2 (by linarith)⟩

theorem pieceOf_spec {pole : ℝ → ℝ → Pole} {F : ℝ → ℝ → ℝ} {a b : Ext ℝ} (h : a < b) (hn : ¬ (a = .ninf ∧ b = .pinf)) :
    ∃ s, pieceOf pole F a b = some s ∧ s.lo = a ∧ s.hi = b ∧ s.isDirac = false ∧ s.WF ∧ s.fn = F (mid a b) := by
  rcases a with _ | _ | a <;> rcases b with _ | _ | b
  · exact absurd h (lt_irrefl _)
  · exact absurd ⟨rfl, rfl⟩ hn
  · exact ⟨_, rfl, rfl, rfl, rfl, trivial, rfl⟩
  · exact absurd h (not_lt.2 bot_le)
  · exact absurd h (lt_irrefl _)
  · exact absurd h (not_lt.2 (WithBot.coe_le_coe.2 le_top))
  · exact absurd h (not_lt.2 bot_le)
  · exact ⟨_, rfl, rfl, rfl, rfl, trivial, rfl⟩
  · refine ⟨_, rfl, rfl, rfl, rfl, ?_, rfl⟩
    have hf : Ext.fin a < Ext.fin b := h
    show a < b
    simpa [Ext.fin] using hf

theorem restrict_split {a b c : Ext ℝ} (h1 : a < b) (h2 : b ≤ c) :
    volume.restrict (interE a c) = volume.restrict (interE a b) + volume.restrict (interE b c) := by
  have hd : Disjoint (interE a b) (interE b c) :=
    Set.disjoint_left.2 fun x hx hy => absurd (hx.2.trans hy.1) (lt_irrefl _)
  rw [← Measure.restrict_union hd (interE_measurable b c)]
  refine Measure.restrict_congr_set ?_
  have hsub : ({x : ℝ | Ext.fin x = b}).Subsingleton := by
    intro x hx y hy
    have := Eq.trans hx (Eq.symm hy)
    simpa [Ext.fin] using this
  have hnull : volume {x : ℝ | Ext.fin x = b} = 0 := hsub.measure_zero _
  have hae : ∀ᵐ x : ℝ, Ext.fin x ≠ b := by rw [ae_iff]; simpa using hnull
  filter_upwards [hae] with x hx
  refine propext ⟨fun h => ?_, fun h => ?_⟩
  · rcases lt_or_gt_of_ne hx with h' | h'
    · exact .inl ⟨h.1, h'⟩
    · exact .inr ⟨h', h.2⟩
  · rcases h with h | h
    · exact ⟨h.1, h.2.trans_le h2⟩
    · exact ⟨h1.trans h.1, h.2⟩

/-- what is known about the list of pieces -/
structure CutSpec (H : ℝ → ℝ) (brks : List (Ext ℝ)) (ps : List (Seg ℝ)) : Prop where
  wf : ∀ s ∈ ps, s.WF
  dens : PF.Dens ps
  cont : ∀ s ∈ ps, s.isDirac = false
  ends : ∀ s ∈ ps, [s.lo, s.hi] <:+: brks
  chain : ps.Pairwise fun s t => s.hi ≤ t.lo

theorem cuts_spec {pole : ℝ → ℝ → Pole} {F : ℝ → ℝ → ℝ} {H : ℝ → ℝ} (h0 : ∀ᵐ x, 0 ≤ H x) (hi : Integrable H) :
    ∀ (brks : List (Ext ℝ)), brks.Pairwise (· < ·) → (∀ a b, [a, b] <:+: brks → ¬ (a = .ninf ∧ b = .pinf)) →
      (∀ a b, [a, b] <:+: brks → ∀ᵐ x, x ∈ interE a b → F (mid a b) x = H x) →
      CutSpec H brks (cuts pole F brks) ∧
      ∀ a l, brks = a :: l → PF.law (cuts pole F brks) =
        (volume.restrict (interE a ((a :: l).getLast (by simp)))).withDensity fun x => ENNReal.ofReal (H x)
  | [], _, _, _ => ⟨⟨by simp [cuts], by simp [cuts, PF.Dens], by simp [cuts], by simp [cuts], by simp [cuts]⟩, by simp⟩
  | [a], _, _, _ => by
    refine ⟨⟨by simp [cuts], by simp [cuts, PF.Dens], by simp [cuts], by simp [cuts], by simp [cuts]⟩, ?_⟩
    intro a' l h
    cases h
    have : interE a a = ∅ := by
      ext x; simp only [interE, mem_ofPred_eq, mem_empty_iff_false, iff_false]; exact fun h => lt_irrefl _ (h.1.trans h.2)
    simp [cuts, this, PF.law]
  | a :: b :: r, hs, hn, hF => by
    have hab : a < b := (List.pairwise_cons.1 hs).1 b (by simp)
    have hinf : [a, b] <:+: a :: b :: r := ⟨[], r, rfl⟩
    have hsub : ∀ {u v : Ext ℝ}, [u, v] <:+: b :: r → [u, v] <:+: a :: b :: r := fun h => h.trans (List.infix_cons (List.infix_refl _))
    obtain ⟨⟨i1, i2, i3, i4, i5⟩, i6⟩ := cuts_spec h0 hi (b :: r) (List.pairwise_cons.1 hs).2
      (fun u v h => hn u v (hsub h)) (fun u v h => hF u v (hsub h))
    obtain ⟨s, e1, e2, e3, e4, e5, e6⟩ := pieceOf_spec (pole := pole) (F := F) hab (hn a b hinf)
    have hin : s.inner = interE a b := by rw [← e2, ← e3]; rfl
    have hFs := hF a b hinf
    have hsd : s.Dens := by
      rw [Seg.dens_inner e4]
      constructor
      · filter_upwards [h0, hFs] with x h1 h2 h3
        rw [hin] at h3
        rw [e6, h2 h3]; exact h1
      · rw [hin, e6]
        refine (hi.integrableOn (s := interE a b)).congr_fun_ae ?_
        refine (ae_restrict_iff' (interE_measurable a b)).2 ?_
        filter_upwards [hFs] with x h1 h2
        exact (h1 h2).symm
    have hge : ∀ t ∈ cuts pole F (b :: r), b ≤ t.lo := by
      intro t ht
      have : t.lo ∈ b :: r := (i4 t ht).subset (by simp)
      rcases List.mem_cons.1 this with h | h
      · exact h.symm.le
      · exact ((List.pairwise_cons.1 (List.pairwise_cons.1 hs).2).1 _ h).le
    refine ⟨⟨?_, ?_, ?_, ?_, ?_⟩, ?_⟩
    · simp only [cuts, e1, Option.toList_some, List.singleton_append, List.mem_cons, forall_eq_or_imp]
      exact ⟨e5, i1⟩
    · simp only [cuts, e1, Option.toList_some, List.singleton_append]
      exact PF.dens_cons.2 ⟨hsd, i2⟩
    · simp only [cuts, e1, Option.toList_some, List.singleton_append, List.mem_cons, forall_eq_or_imp]
      exact ⟨e4, i3⟩
    · simp only [cuts, e1, Option.toList_some, List.singleton_append, List.mem_cons, forall_eq_or_imp]
      exact ⟨by rw [e2, e3]; exact hinf, fun t ht => hsub (i4 t ht)⟩
    · simp only [cuts, e1, Option.toList_some, List.singleton_append, List.pairwise_cons]
      exact ⟨fun t ht => by rw [e3]; exact hge t ht, i5⟩
    · intro a' l h
      cases h
      simp only [cuts, e1, Option.toList_some, List.singleton_append]
      rw [PF.law_cons, i6 b r rfl, Seg.law_inner e4, hin]
      have hlast : b ≤ (b :: r).getLast (by simp) := by
        have : (b :: r).getLast (by simp) ∈ b :: r := List.getLast_mem _
        rcases List.mem_cons.1 this with h | h
        · exact h.symm.le
        · exact ((List.pairwise_cons.1 (List.pairwise_cons.1 hs).2).1 _ h).le
      rw [List.getLast_cons (by simp : b :: r ≠ []), restrict_split hab hlast, withDensity_add_measure]
      congr 1
      refine withDensity_congr_ae ?_
      refine (ae_restrict_iff' (interE_measurable a b)).2 ?_
      filter_upwards [hFs] with x h1 h2
      rw [e6, h1 h2]

theorem pieces_perm {pole : ℝ → ℝ → Pole} {F : ℝ → ℝ → ℝ} (brks : List (Ext ℝ)) :
    (pieces pole F brks).Perm (cuts pole F brks) := by
  have key : ∀ l : List (Seg ℝ), (l.filter isMInf ++ l.filter isPInf ++ l.filter fun s => !isMInf s && !isPInf s).Perm l := by
    intro l
    induction l with
    | nil => simp
    | cons s l ih =>
      cases s
      · simp only [List.filter_cons, isMInf, isPInf, Bool.not_false, Bool.and_self, if_true, Bool.false_eq_true, if_false]
        exact List.perm_middle.trans (ih.cons _)
      · simp only [List.filter_cons, isMInf, isPInf, Bool.not_false, Bool.and_self, if_true, Bool.false_eq_true, if_false]
        exact List.perm_middle.trans (ih.cons _)
      · simp only [List.filter_cons, isMInf, isPInf, Bool.not_false, if_true, Bool.false_eq_true, if_false,
          Bool.not_true, Bool.false_and, List.cons_append]
        exact ih.cons _
      · simp only [List.filter_cons, isMInf, isPInf, Bool.not_false, if_true, Bool.false_eq_true, if_false,
          Bool.not_true, Bool.and_false, List.append_assoc, List.cons_append]
        refine List.perm_middle.trans (List.Perm.cons _ ?_)
        simpa [isMInf, isPInf] using ih
      · simp only [List.filter_cons, isMInf, isPInf, Bool.not_false, Bool.and_self, if_true, Bool.false_eq_true, if_false]
        exact List.perm_middle.trans (ih.cons _)
  exact key _

/-- the ends of the pieces are break points -/
theorem pieces_ends {pole : ℝ → ℝ → Pole} {F : ℝ → ℝ → ℝ} {brks : List (Ext ℝ)} (hs : brks.Pairwise (· < ·))
    (hn : ∀ a b, [a, b] <:+: brks → ¬ (a = .ninf ∧ b = .pinf)) (s : Seg ℝ) (h : s ∈ pieces pole F brks) :
    s.isDirac = false ∧ s.lo ∈ brks ∧ s.hi ∈ brks := by
  have key : ∀ brks : List (Ext ℝ), brks.Pairwise (· < ·) → (∀ a b, [a, b] <:+: brks → ¬ (a = .ninf ∧ b = .pinf)) →
      ∀ s ∈ cuts pole F brks, s.isDirac = false ∧ s.lo ∈ brks ∧ s.hi ∈ brks := by
    intro brks
    induction brks with
    | nil => simp [cuts]
    | cons a l ih =>
      cases l with
      | nil => simp [cuts]
      | cons b r =>
        intro hs hn s h
        obtain ⟨t, e1, e2, e3, e4, -, -⟩ := pieceOf_spec (pole := pole) (F := F) ((List.pairwise_cons.1 hs).1 b (by simp))
          (hn a b ⟨[], r, rfl⟩)
        simp only [cuts, e1, Option.toList_some, List.singleton_append, List.mem_cons] at h
        rcases h with rfl | h
        · exact ⟨e4, by simp [e2], by simp [e3]⟩
        · obtain ⟨h1, h2, h3⟩ := ih (List.pairwise_cons.1 hs).2 (fun u v h => hn u v (h.trans (List.infix_cons (List.infix_refl _)))) s h
          exact ⟨h1, List.mem_cons_of_mem _ h2, List.mem_cons_of_mem _ h3⟩
  exact key brks hs hn s ((pieces_perm brks).mem_iff.1 h)

theorem law_perm {l r : PF ℝ} (h : l.Perm r) : PF.law l = PF.law r := (h.map _).sum_eq

/-- atoms as pieces -/
def atoms (D : List (ℝ × ℝ)) : List (Seg ℝ) := D.map fun kv => .dirac kv.1 kv.2

/-- pieces between consecutive break points together with atoms not inside them -/
theorem assemble {eps : ℝ} (he : 0 ≤ eps) {pole : ℝ → ℝ → Pole} {F : ℝ → ℝ → ℝ} {H : ℝ → ℝ} (h0 : ∀ᵐ x, 0 ≤ H x)
    (hi : Integrable H) {brks : List (Ext ℝ)} (hs : brks.Pairwise (· < ·))
    (hn : ∀ a b, [a, b] <:+: brks → ¬ (a = .ninf ∧ b = .pinf))
    (hF : ∀ a b, [a, b] <:+: brks → ∀ᵐ x, x ∈ interE a b → F (mid a b) x = H x)
    (hout : ∀ᵐ x, H x ≠ 0 → (∃ a ∈ brks, a < .fin x) ∧ ∃ b ∈ brks, .fin x < b)
    {D : List (Seg ℝ)}
    (hD : ∀ s ∈ D, ∃ a m, s = .dirac a m ∧ 0 ≤ m ∧ ∀ u v, [u, v] <:+: brks → ¬ (u < .fin a ∧ .fin a < v))
    (hap : D.Pairwise (Seg.Compat eps)) :
    ∃ r, PF.addAll eps [] (pieces pole F brks ++ D) = some r ∧ PF.WF eps r ∧ PF.Dens r ∧
      PF.law r = (volume.withDensity fun x => ENNReal.ofReal (H x)) + PF.law D ∧
      (∀ x, r.massAt x = PF.massAt D x) ∧ (∀ᵐ x, r.val x = H x) ∧
      (pieces pole F brks ++ D).Pairwise (Seg.Compat eps) ∧ ∀ s ∈ pieces pole F brks ++ D, s.WF := by
  obtain ⟨⟨i1, i2, i3, i4, i5⟩, i6⟩ := cuts_spec (pole := pole) (F := F) h0 hi brks hs hn hF
  have hp := pieces_perm (pole := pole) (F := F) brks
  have hlaw : PF.law (cuts pole F brks) = volume.withDensity fun x => ENNReal.ofReal (H x) := by
    cases brks with
    | nil =>
      have : ∀ᵐ x, H x = 0 := by
        filter_upwards [hout] with x hx
        by_contra hc
        obtain ⟨⟨a, ha, -⟩, -⟩ := hx hc
        simp at ha
      rw [show cuts pole F [] = [] from rfl]
      have e : volume.withDensity (fun x => ENNReal.ofReal (H x)) = (0 : Measure ℝ) := by
        rw [← withDensity_zero (μ := volume)]
        refine withDensity_congr_ae ?_
        filter_upwards [this] with x hx
        simp [hx]
      rw [e]; simp [PF.law]
    | cons a l =>
      rw [i6 a l rfl, ← withDensity_indicator (interE_measurable _ _)]
      refine withDensity_congr_ae ?_
      filter_upwards [hout] with x hx
      by_cases h : x ∈ interE a ((a :: l).getLast (by simp))
      · rw [indicator_of_mem h]
      · rw [indicator_of_notMem h]
        have : H x = 0 := by
          by_contra hc
          obtain ⟨⟨u, hu, hu'⟩, v, hv, hv'⟩ := hx hc
          refine h ⟨?_, ?_⟩
          · rcases List.mem_cons.1 hu with rfl | hu
            · exact hu'
            · exact ((List.pairwise_cons.1 hs).1 u hu).trans hu'
          · have hle : ∀ (l : List (Ext ℝ)) (hl : l ≠ []), l.Pairwise (· < ·) → ∀ v ∈ l, v ≤ l.getLast hl := by
              intro l hl hp v hv
              rcases List.mem_append.1 (by rw [List.dropLast_append_getLast hl]; exact hv : v ∈ l.dropLast ++ [l.getLast hl]) with h | h
              · have := hp
                rw [← List.dropLast_append_getLast hl, List.pairwise_append] at this
                exact (this.2.2 v h _ (by simp)).le
              · rw [List.mem_singleton.1 h]
            exact hv'.trans_le (hle _ _ hs v hv)
        simp [this]
  have hbrk : ∀ s ∈ cuts pole F brks, ∀ a, (∀ u v, [u, v] <:+: brks → ¬ (u < Ext.fin a ∧ Ext.fin a < v)) →
      s.hi ≤ .fin a ∨ .fin a ≤ s.lo := by
    intro s hs' a ha
    have h := ha _ _ (i4 s hs')
    rw [not_and_or, not_lt, not_lt] at h
    exact h.symm
  have hcc : (cuts pole F brks).Pairwise (Seg.Compat eps) := by
    refine List.Pairwise.imp_of_mem ?_ i5
    intro s t hs' ht' h
    refine .inl (.inl ⟨h, ?_⟩)
    rintro a m a' m' rfl -
    exact absurd (i3 _ hs') (by simp [Seg.isDirac])
  have hcp : (pieces pole F brks).Pairwise (Seg.Compat eps) :=
    hp.symm.pairwise hcc fun h => Seg.Compat.symm h
  have hall : (pieces pole F brks ++ D).Pairwise (Seg.Compat eps) := by
    rw [List.pairwise_append]
    refine ⟨hcp, hap, ?_⟩
    intro s hs' t ht
    obtain ⟨a, m, rfl, hm, ha⟩ := hD t ht
    have hs'' := hp.mem_iff.1 hs'
    have hnd : ∀ a m, s ≠ .dirac a m := by
      rintro a m rfl
      exact absurd (i3 _ hs'') (by simp [Seg.isDirac])
    rcases hbrk s hs'' a ha with h | h
    · exact .inl (.inl ⟨h, fun a m a' m' h1 => absurd h1 (hnd a m)⟩)
    · exact .inl (.inr ⟨h, fun a' m' a m _ h2 => absurd h2 (hnd a m)⟩)
  have hwf : ∀ s ∈ pieces pole F brks ++ D, s.WF := by
    intro s hs'
    rcases List.mem_append.1 hs' with h | h
    · exact i1 s (hp.mem_iff.1 h)
    · obtain ⟨a, m, rfl, -⟩ := hD s h; trivial
  have hdens : PF.Dens (pieces pole F brks ++ D) := by
    intro s hs'
    rcases List.mem_append.1 hs' with h | h
    · exact i2 s (hp.mem_iff.1 h)
    · obtain ⟨a, m, rfl, hm, -⟩ := hD s h; exact hm
  obtain ⟨r, h1, h2, h3, h4, h5, h6, -⟩ := addAll_law he hwf hall hdens
  refine ⟨r, h1, h2, h3, ?_, ?_, ?_, hall, hwf⟩
  · rw [h4, PF.law_append, law_perm hp, hlaw]
  · intro x
    rw [h6]
    have e : PF.massAt (pieces pole F brks ++ D) x = PF.massAt (pieces pole F brks) x + PF.massAt D x := by simp [PF.massAt]
    rw [e]
    have : PF.massAt (pieces pole F brks) x = 0 := by
      refine List.sum_eq_zero ?_
      intro y hy
      obtain ⟨s, hs', rfl⟩ := List.mem_map.1 hy
      have := i3 s (hp.mem_iff.1 hs')
      cases s <;> simp_all [Seg.massAt, Seg.isDirac]
    rw [this, zero_add]
  · have hv : ∀ x, r.val x = PF.val (cuts pole F brks) x := by
      intro x
      rw [h5]
      have e : PF.val (pieces pole F brks ++ D) x = PF.val (pieces pole F brks) x + PF.val D x := by simp [PF.val]
      rw [e, PF.val_perm hp]
      have : PF.val D x = 0 := by
        refine List.sum_eq_zero ?_
        intro y hy
        obtain ⟨s, hs', rfl⟩ := List.mem_map.1 hy
        obtain ⟨a, m, rfl, -⟩ := hD s hs'
        exact dirac_val a m x
      rw [this, add_zero]
    have hd : PF.law (cuts pole F brks) = volume.withDensity fun x => ENNReal.ofReal (PF.val (cuts pole F brks) x) := by
      rw [PF.law_decomp (S := ∅) i2 fun a m h => absurd (i3 _ h) (by simp [Seg.isDirac])]
      simp
    rw [hlaw] at hd
    have m1 : AEMeasurable (fun x => ENNReal.ofReal (H x)) volume := hi.aestronglyMeasurable.aemeasurable.ennreal_ofReal
    have m2 : AEMeasurable (fun x => ENNReal.ofReal (PF.val (cuts pole F brks) x)) volume :=
      (PF.val_integrable i2).aestronglyMeasurable.aemeasurable.ennreal_ofReal
    have := (withDensity_eq_iff m1 m2 (by
      exact (hi.lintegral_lt_top (f := H)).ne)).1 hd
    filter_upwards [this, h0, PF.val_nonneg i2] with x e1 e2 e3
    rw [hv]
    exact ((ENNReal.ofReal_eq_ofReal_iff e2 e3).1 e1).symm

end Conv
end Pacal
