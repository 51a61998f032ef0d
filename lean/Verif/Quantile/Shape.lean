import Verif.Law.CdfLemmas
import Verif.Quantile.Model
import Verif.Quantile.Spec
import Mathlib.MeasureTheory.Integral.DominatedConvergence

/-! The pieces of a CDF built by `cumint`: they follow each other without gaps and lie between `P(X < x)` and `P(X ≤ x)`. -/

namespace Pacal
open MeasureTheory Set Transform Filter Topology

namespace Quantile

/-- the pieces follow each other without gaps from `e` to `f` -/
def Linked (e f : Ext ℝ) : PF ℝ → Prop
  | [] => e = f
  | s :: l => s.lo = e ∧ Linked s.hi f l

theorem linked_append {e f g : Ext ℝ} : ∀ {l₁ l₂ : PF ℝ}, Linked e f l₁ → Linked f g l₂ → Linked e g (l₁ ++ l₂)
  | [], _, h1, h2 => by obtain rfl : e = f := h1; exact h2
  | _ :: _, _, h1, h2 => ⟨h1.1, linked_append h1.2 h2⟩

theorem linked_cumSegs (q : Quad) (p : QPar) : ∀ {l : PF ℝ} {e f : Ext ℝ} {y : ℝ}, Linked e f l → Linked e f (cumSegs q p y l)
  | [], _, _, _, h => h
  | s :: l, e, f, y, h => by
    cases hs : s.isDirac
    · rw [cumSegs_of_not q p y hs]
      exact ⟨by rw [cumint_lo]; exact h.1, by rw [cumint_hi]; exact linked_cumSegs q p h.2⟩
    · cases s <;> simp [Seg.isDirac] at hs
      rename_i a m
      obtain ⟨h1, h2⟩ := h
      obtain rfl : Ext.fin a = e := h1
      exact linked_cumSegs q p (y := y + m) h2

theorem linked_of_chain : ∀ {l : PF ℝ}, List.IsChain (fun s t => s.hi = t.lo) l → l ≠ [] →
    ∃ s t, l.head? = some s ∧ l.getLast? = some t ∧ Linked s.lo t.hi l
  | [], _, h => absurd rfl h
  | [s], _, _ => ⟨s, s, rfl, rfl, rfl, rfl⟩
  | s :: t :: l, h, _ => by
    obtain ⟨h1, h2⟩ := List.isChain_cons_cons.1 h
    obtain ⟨s', t', e1, e2, e3⟩ := linked_of_chain h2 (by simp)
    obtain rfl : t = s' := by simpa using e1
    exact ⟨s, t', rfl, by rw [List.getLast?_cons_of_ne_nil (by simp)]; exact e2, rfl, h1 ▸ e3⟩

theorem touching_of_chain {eps : ℝ} (he : 0 ≤ eps) {l : PF ℝ} (hw : PF.WF eps l)
    (h : List.IsChain (fun s t => s.hi = t.lo) l) : PF.Touching l := by
  have key : ∀ {l : PF ℝ}, PF.WF eps l → List.IsChain (fun s t => s.hi = t.lo) l → List.IsChain Seg.follows l := by
    intro l
    induction l with
    | nil => intros; simp
    | cons s l ih =>
      intro hw h
      cases l with
      | nil => simp
      | cons t l =>
        obtain ⟨h1, h2⟩ := List.isChain_cons_cons.1 h
        obtain ⟨w1, w2⟩ := List.pairwise_cons.1 hw.sorted
        refine List.isChain_cons_cons.2 ⟨?_, ih ⟨fun u hu => hw.seg u (by simp [hu]), w2⟩ h2⟩
        cases t with
        | dirac a m =>
          refine ⟨?_, h1⟩
          cases s with
          | dirac a' m' =>
            have := (w1 (.dirac a m) (by simp)).2 _ _ _ _ rfl rfl
            obtain rfl : a' = a := by simpa [Seg.hi, Seg.lo, Ext.fin] using h1
            rw [sub_self, abs_zero] at this
            exact absurd this (not_lt.2 he)
          | _ => rfl
        | const a b c => exact .inr h1
        | _ => trivial
  cases l with
  | nil => simp [PF.Touching]
  | cons s l =>
    cases s with
    | dirac a m =>
      cases l with
      | nil => simp [PF.Touching]
      | cons t l =>
        exact ⟨((List.isChain_cons_cons.1 h).1).symm, key hw h⟩
    | _ => exact key hw h

/-- what is used about the pieces of a CDF -/
structure IsCdf (μ : Measure ℝ) (c : PF ℝ) : Prop where
  ne : c ≠ []
  wf : ∀ s ∈ c, s.WF ∧ s.isDirac = false
  linked : Linked .ninf .pinf c
  sand : ∀ s ∈ c, ∀ x : ℝ, s.lo ≤ .fin x → .fin x ≤ s.hi → μ.real (Iio x) ≤ s.fn x ∧ s.fn x ≤ μ.real (Iic x)
  cont : ∀ s ∈ c, ∀ a b : ℝ, s.lo ≤ .fin a → .fin b ≤ s.hi → ContinuousOn s.fn (Icc a b)

theorem mem_cumSegs_split (q : Quad) (p : QPar) {t : Seg ℝ} : ∀ {l : PF ℝ} {y : ℝ}, PF.Dens l → t ∈ cumSegs q p y l →
    ∃ l₁ s l₂, l = l₁ ++ s :: l₂ ∧ s.isDirac = false ∧
      t = s.cumint q p (if s.isPInf then y + (PF.law l₁).real univ + s.law.real univ else y + (PF.law l₁).real univ)
  | [], _, _, h => by simp [cumSegs] at h
  | s :: l, y, hd, h => by
    obtain ⟨hds, hdl⟩ := PF.dens_cons.1 hd
    cases hs : s.isDirac
    · rw [cumSegs_of_not q p y hs] at h
      rcases List.mem_cons.1 h with rfl | h
      · exact ⟨[], s, l, rfl, hs, by simp⟩
      · obtain ⟨l₁, u, l₂, rfl, hu, rfl⟩ := mem_cumSegs_split q p hdl h
        refine ⟨s :: l₁, u, l₂, rfl, hu, ?_⟩
        have hd1 : PF.Dens (s :: l₁) := fun v hv => hd v (by
          rcases List.mem_cons.1 hv with rfl | hv <;> simp [*])
        rw [PF.law_real_cons hd1]; ring_nf
    · cases s <;> simp [Seg.isDirac] at hs
      rename_i a m
      obtain ⟨l₁, u, l₂, rfl, hu, rfl⟩ := mem_cumSegs_split q p hdl (show t ∈ cumSegs q p (y + m) l from h)
      refine ⟨.dirac a m :: l₁, u, l₂, rfl, hu, ?_⟩
      have hd1 : PF.Dens (.dirac a m :: l₁) := fun v hv => hd v (by
        rcases List.mem_cons.1 hv with rfl | hv <;> simp [*])
      have hm : (Seg.dirac a m).law.real univ = m := by
        rw [Seg.law_real_dirac hds MeasurableSet.univ, indicator_univ]
      rw [PF.law_real_cons hd1, hm]; ring_nf

theorem PF_law_Iic_left : ∀ {l : PF ℝ}, PF.Dens l → ∀ {x : ℝ}, (∀ s ∈ l, s.hi ≤ .fin x) →
    (PF.law l).real (Iic x) = (PF.law l).real univ
  | [], _, _, _ => by simp
  | s :: l, hd, x, h => by
    rw [PF.law_real_cons hd, PF.law_real_cons hd, Pacal.law_Iic_left (PF.dens_cons.1 hd).1 (h s (by simp)),
      PF_law_Iic_left (PF.dens_cons.1 hd).2 fun t ht => h t (by simp [ht])]

theorem law_Iio_right {s : Seg ℝ} (hd : s.Dens) {x : ℝ} (h : .fin x ≤ s.lo) : s.law.real (Iio x) = 0 := by
  cases hs : s.isDirac
  · rw [Seg.law_real hs hd measurableSet_Iio]
    refine setIntegral_eq_zero_of_forall_eq_zero fun t ht => ?_
    rw [Seg.val, if_neg]
    rintro ⟨-, h1, -⟩
    have : Ext.fin t < Ext.fin x := by simpa [Ext.fin] using ht
    exact absurd ((h.trans h1).trans_lt this) (lt_irrefl _)
  · cases s <;> simp [Seg.isDirac] at hs
    rename_i a m
    rw [Seg.law_real_dirac hd measurableSet_Iio]
    have : x ≤ a := by simpa [Seg.lo, Ext.fin] using h
    simp [this]

theorem PF_law_Iio_right : ∀ {l : PF ℝ}, PF.Dens l → ∀ {x : ℝ}, (∀ s ∈ l, .fin x ≤ s.lo) → (PF.law l).real (Iio x) = 0
  | [], _, _, _ => by simp
  | s :: l, hd, x, h => by
    rw [PF.law_real_cons hd, law_Iio_right (PF.dens_cons.1 hd).1 (h s (by simp)),
      PF_law_Iio_right (PF.dens_cons.1 hd).2 fun t ht => h t (by simp [ht]), add_zero]

theorem continuous_Iic {s : Seg ℝ} (hs : s.isDirac = false) (hd : s.Dens) : Continuous fun x => s.law.real (Iic x) := by
  have hi := ((Seg.dens_of_not hs).1 hd).2
  have e : (fun x => s.law.real (Iic x)) = fun x => ∫ t in Iic x, s.val t := by
    funext x; rw [Seg.law_real hs hd measurableSet_Iic]
  rw [e]
  have h0 : ∀ x, ∫ t in Iic x, s.val t = (∫ t in Iic 0, s.val t) + ∫ t in (0 : ℝ)..x, s.val t := fun x => by
    rw [← intervalIntegral.integral_Iic_sub_Iic hi.integrableOn hi.integrableOn]; ring
  rw [funext h0]
  exact continuous_const.add (intervalIntegral.continuous_primitive (fun a b => hi.intervalIntegrable) 0)

theorem dens_append {l₁ l₂ : PF ℝ} (h : PF.Dens (l₁ ++ l₂)) : PF.Dens l₁ ∧ PF.Dens l₂ :=
  ⟨fun s hs => h s (by simp [hs]), fun s hs => h s (by simp [hs])⟩

/-- the result of `cumint` for a distribution without gaps -/
theorem cumint_isCdf {eps : ℝ} (he : 0 ≤ eps) {q : Quad} {p : QPar} (h : ExactQ q p) {l : PF ℝ} (hne : l ≠ [])
    (hw : PF.WF eps l) (hd : PF.Dens l) (hc : List.IsChain (fun s t => s.hi = t.lo) l) :
    ∃ c, PF.cumint eps q p l = some c ∧ IsCdf (PF.law l) c := by
  have hfin := PF.law_finite hd
  obtain ⟨T, hT1, hT2, u, F, huF, huw, hun, hm, hf⟩ := cumint_shape he h hne hw hd
  obtain ⟨s0, s1, hs0, hs1, hl⟩ := linked_of_chain hc hne
  have hcum := linked_cumSegs q p (y := 0) hl
  have hlast : s1 ∈ l := List.mem_of_getLast? hs1
  -- the right tail
  have hT : Linked s1.hi .pinf T := by
    by_cases hp : ∃ s ∈ l, s.isPInf = true
    · rw [hT2 hp]
      obtain ⟨s, hs, hsp⟩ := hp
      have := wf_getLast hw hs1 s hs
      cases s <;> simp [Seg.isPInf] at hsp
      exact le_antisymm le_top this
    · push Not at hp
      obtain ⟨B, rfl, s, hs, hB⟩ := hT1 fun s hs => by simpa using hp s hs
      obtain rfl : s1 = s := Option.some.inj (hs1.symm.trans hs)
      exact ⟨hB.symm, rfl⟩
  have huL : Linked s0.lo .pinf (u :: F) := huF ▸ linked_append hcum hT
  -- the sandwich for the pieces of the body and the right tail
  have body : ∀ t ∈ u :: F, (∀ x : ℝ, t.lo ≤ .fin x → .fin x ≤ t.hi →
      (PF.law l).real (Iio x) ≤ t.fn x ∧ t.fn x ≤ (PF.law l).real (Iic x)) ∧
      ∀ a b : ℝ, t.lo ≤ .fin a → .fin b ≤ t.hi → ContinuousOn t.fn (Icc a b) := by
    intro t ht
    rw [← huF] at ht
    rcases List.mem_append.1 ht with ht | ht
    · obtain ⟨l₁, s, l₂, e, hs, rfl⟩ := mem_cumSegs_split q p hd ht
      have hd' := e ▸ hd
      obtain ⟨hd1, hd2⟩ := dens_append hd'
      obtain ⟨hds, hd3⟩ := PF.dens_cons.1 hd2
      obtain ⟨w1, w2, w3⟩ := wf_append (e ▸ hw)
      have hws : s.WF := w2.seg s (by simp)
      have hok : ∀ x, s.lo ≤ .fin x → s.constOk x := by
        intro x hx
        cases s <;> try trivial
        exact .inl (by simpa [Seg.lo, Ext.fin] using hx)
      have hval : ∀ x, s.lo ≤ .fin x → (s.cumint q p (if s.isPInf then 0 + (PF.law l₁).real univ + s.law.real univ
          else 0 + (PF.law l₁).real univ)).fn x = (PF.law l₁).real univ + s.law.real (Iic x) := by
        intro x hx
        rw [cumint_fn h hs hws hds (hok x hx)]
        cases s.isPInf <;> simp [add_right_comm]
      have f1 := PF.law_finite hd1
      have f2 := Seg.law_finite hds
      have f3 := PF.law_finite hd3
      have hsplit : ∀ A, (PF.law l).real A = (PF.law l₁).real A + (s.law.real A + (PF.law l₂).real A) := by
        intro A
        rw [e, PF.law_append, PF.law_cons, measureReal_add_apply, measureReal_add_apply]
      constructor
      · intro x hx hx'
        rw [cumint_lo] at hx
        rw [cumint_hi] at hx'
        rw [hval x hx, hsplit, hsplit]
        constructor
        · rw [PF_law_Iio_right hd3 fun t ht => hx'.trans ((List.pairwise_cons.1 w2.sorted).1 t ht).1, add_zero]
          exact add_le_add (measureReal_mono (subset_univ _)) (measureReal_mono Iio_subset_Iic_self)
        · rw [PF_law_Iic_left hd1 fun t ht => ((w3 t ht s (by simp)).1).trans hx]
          have : 0 ≤ (PF.law l₂).real (Iic x) := measureReal_nonneg
          linarith
      · intro a b ha _
        rw [cumint_lo] at ha
        refine ContinuousOn.congr ((continuous_const (y := (PF.law l₁).real univ)).add (continuous_Iic hs hds)).continuousOn fun x hx => ?_
        exact hval x (ha.trans (Ext.fin_le_fin.2 hx.1))
    · by_cases hp : ∃ s ∈ l, s.isPInf = true
      · rw [hT2 hp] at ht; simp at ht
      · push Not at hp
        obtain ⟨B, rfl, s, hs, hB⟩ := hT1 fun s hs => by simpa using hp s hs
        rw [List.mem_singleton.1 ht]
        refine ⟨fun x hx _ => ⟨measureReal_mono (subset_univ _), ?_⟩, fun a b _ _ => continuousOn_const⟩
        rw [PF_law_Iic_left hd fun t ht => (wf_getLast hw hs t ht).trans (hB.le.trans hx)]
        exact le_rfl
  have hulo : u.lo = s0.lo := huL.1
  by_cases hu : ∃ a, u.lo = .fin a
  · obtain ⟨a, ha⟩ := hu
    obtain ⟨e, hw'⟩ := hf a ha
    refine ⟨_, e, by simp, fun t ht => ⟨hw'.seg t ht, ?_⟩, ⟨rfl, ?_⟩, ?_, ?_⟩
    · rcases List.mem_cons.1 ht with rfl | ht
      · rfl
      · exact hun t ht
    · show Linked (.fin a) .pinf (u :: F)
      rw [← ha, hulo]; exact huL
    · intro t ht
      rcases List.mem_cons.1 ht with rfl | ht
      · intro x _ hx
        refine ⟨?_, measureReal_nonneg⟩
        have : (PF.law l).real (Iio x) = 0 := by
          cases l with
          | nil => exact absurd rfl hne
          | cons s l =>
            obtain rfl : s = s0 := by simpa using hs0
            exact PF_law_Iio_right hd fun t ht => hx.trans ((ha.symm.trans hulo).le.trans (wf_head hw t ht))
        rw [this]
        exact le_rfl
      · exact (body t ht).1
    · intro t ht
      rcases List.mem_cons.1 ht with rfl | ht
      · exact fun a b _ _ => continuousOn_const
      · exact (body t ht).2
  · have hu' : ∃ b f, u = .minf b f := by
      cases u <;> first | exact ⟨_, _, rfl⟩ | exact absurd ⟨_, rfl⟩ hu
    refine ⟨_, hm hu', by simp, fun t ht => ⟨huw.seg t ht, hun t ht⟩, ?_, fun t ht => (body t ht).1, fun t ht => (body t ht).2⟩
    obtain ⟨b, f, rfl⟩ := hu'
    rw [← hulo] at huL
    exact huL

end Quantile
end Pacal
