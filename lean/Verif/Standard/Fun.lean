import Verif.Standard.Chain
import Verif.Standard.FunSpec

/-!
The pieces built from a function and break points, and short chains.
-/

namespace Pacal.Standard
open MeasureTheory

theorem finPiece_some {f : ℝ → ℝ} {a b : ℝ} {lp rp rp' : Bool} (h : ¬ (rp = true ∧ rp' = true)) :
    ∃ pole, finPiece f a b lp rp rp' = some (.fin pole a b f) := by
  unfold finPiece
  cases lp <;> cases rp <;> cases rp' <;> simp_all

theorem fin_lt_of_lt {e : Ext ℝ} {a : ℝ} (h : Ext.fin a < e) : e ≠ Ext.ninf := by
  rintro rfl
  exact absurd h (not_lt_bot (a := (show EReal from Ext.fin a)))

theorem finite_of_between {e : Ext ℝ} (h1 : e ≠ Ext.ninf) (h2 : e ≠ Ext.pinf) : ∃ x, e = Ext.fin x := by
  match e with
  | none => exact absurd rfl h1
  | some none => exact absurd rfl h2
  | some (some x) => exact ⟨x, rfl⟩

theorem fin_ne_ninf (a : ℝ) : Ext.fin a ≠ Ext.ninf := fun h => EReal.coe_ne_bot a h
theorem fin_ne_pinf (a : ℝ) : Ext.fin a ≠ Ext.pinf := fun h => EReal.coe_ne_top a h

@[simp] theorem finite?_fin (a : ℝ) : finite? (.fin a) = some a := rfl

theorem fin_lt_pinf (a : ℝ) : Ext.fin a < Ext.pinf := EReal.coe_lt_top a
theorem ninf_lt_fin (a : ℝ) : Ext.ninf < Ext.fin a := EReal.bot_lt_coe a

theorem lt_ne_ninf {d e : Ext ℝ} (h : d < e) : e ≠ Ext.ninf := by
  rintro rfl
  exact absurd h (not_lt_bot (a := (show EReal from d)))

theorem lt_ne_pinf {d e : Ext ℝ} (h : d < e) : d ≠ Ext.pinf := by
  rintro rfl
  exact absurd h (not_top_lt (a := (show EReal from e)))

theorem laterPieces_chain (f : ℝ → ℝ) : ∀ (l : List Break) (p q : Break),
    (p :: q :: l).Pairwise (fun p q => p.at_ < q.at_) → (p :: q :: l).IsChain FlagsOk → p.at_ ≠ Ext.ninf →
    ∃ r, laterPieces f (p :: q :: l) = some r ∧ Chain f p.at_ (endOf q.at_ l) r := by
  intro l
  induction l with
  | nil =>
    intro p q hs hc hp
    have hpq : p.at_ < q.at_ := by simpa using hs
    obtain ⟨a, ha⟩ := finite_of_between hp (lt_ne_pinf hpq)
    by_cases hq : q.at_ = Ext.pinf
    · refine ⟨[.pinf a f], ?_, ?_⟩
      · simp [laterPieces, ha, hq]
      · rw [ha, endOf, hq]
        exact Chain.one (.pinf a f) rfl (fin_lt_pinf a) (Filter.Eventually.of_forall fun x _ _ => rfl)
    · obtain ⟨b, hb⟩ := finite_of_between (lt_ne_ninf hpq) hq
      obtain ⟨pole, hpole⟩ := finPiece_some (f := f) (a := a) (b := b) (lp := p.lp) (rp := p.rp) (rp' := q.rp)
        (by simpa [FlagsOk] using hc)
      refine ⟨[.fin pole a b f], ?_, ?_⟩
      · simp only [laterPieces, ha, hb, finite?_fin, fin_ne_ninf, fin_ne_pinf, or_self, if_false, Option.bind_some,
          hpole, Option.map_some]
      · rw [ha, endOf, hb]
        refine Chain.one (.fin pole a b f) rfl ?_ (Filter.Eventually.of_forall fun x _ _ => rfl)
        rw [ha, hb] at hpq
        exact hpq
  | cons r l ih =>
    intro p q hs hc hp
    rw [List.pairwise_cons] at hs
    have hpq : p.at_ < q.at_ := hs.1 q (by simp)
    have hqr : q.at_ < r.at_ := (List.pairwise_cons.1 hs.2).1 r (by simp)
    rw [List.isChain_cons_cons] at hc
    obtain ⟨a, ha⟩ := finite_of_between hp (lt_ne_pinf hpq)
    obtain ⟨b, hb⟩ := finite_of_between (lt_ne_ninf hpq) (lt_ne_pinf hqr)
    obtain ⟨t, ht, hch⟩ := ih q r hs.2 hc.2 (lt_ne_ninf hpq)
    obtain ⟨pole, hpole⟩ := finPiece_some (f := f) (a := a) (b := b) (lp := p.lp) (rp := p.rp) (rp' := q.rp) hc.1
    refine ⟨.fin pole a b f :: t, ?_, ?_⟩
    · rw [laterPieces, ha, hb]
      simp only [finite?_fin, Option.bind_some, hpole, ht, Option.map_some]
    · rw [ha]
      rw [hb] at hch
      refine Chain.cons (.fin pole a b f) rfl ?_ (Filter.Eventually.of_forall fun x _ _ => rfl) hch
      rw [ha, hb] at hpq
      exact hpq

theorem pieces_chain (f : ℝ → ℝ) (p q : Break) (l : List Break)
    (hs : (p :: q :: l).Pairwise (fun p q => p.at_ < q.at_)) (hc : (p :: q :: l).IsChain FlagsOk)
    (he : EndsOk (p :: q :: l)) :
    ∃ r, pieces f (p :: q :: l) = some r ∧ Chain f p.at_ (endOf q.at_ l) r := by
  have hpq : p.at_ < q.at_ := (List.pairwise_cons.1 hs).1 q (by simp)
  have hc' := hc
  rw [List.isChain_cons_cons] at hc'
  have hqf : ∃ b, q.at_ = .fin b := by
    refine finite_of_between (lt_ne_ninf hpq) ?_
    cases l with
    | nil => exact he
    | cons r l => exact lt_ne_pinf ((List.pairwise_cons.1 (List.pairwise_cons.1 hs).2).1 r (by simp))
  obtain ⟨b, hb⟩ := hqf
  have hfirst : ∃ s : Seg ℝ, (if p.at_ = Ext.ninf ∨ p.at_ = Ext.pinf then (finite? q.at_).map fun b => Seg.minf b f
      else (finite? p.at_).bind fun a => (finite? q.at_).bind fun b => finPiece f a b p.lp p.rp q.rp) = some s ∧
      s.isDirac = false ∧ s.lo = p.at_ ∧ s.hi = q.at_ ∧ s.fn = f := by
    by_cases hp : p.at_ = Ext.ninf
    · refine ⟨.minf b f, ?_, rfl, hp.symm, hb.symm, rfl⟩
      rw [if_pos (Or.inl hp), hb]
      rfl
    · obtain ⟨a, ha⟩ := finite_of_between hp (lt_ne_pinf hpq)
      obtain ⟨pole, hpole⟩ := finPiece_some (f := f) (a := a) (b := b) (lp := p.lp) (rp := p.rp) (rp' := q.rp) hc'.1
      refine ⟨.fin pole a b f, ?_, rfl, ha.symm, hb.symm, rfl⟩
      rw [if_neg (by rw [ha]; simp [fin_ne_ninf, fin_ne_pinf]), ha, hb]
      exact hpole
  obtain ⟨s, h1, h2, h3, h4, h5⟩ := hfirst
  have hagree : ∀ᵐ x : ℝ, s.lo ≤ .fin x → .fin x < s.hi → s.fn x = f x :=
    Filter.Eventually.of_forall fun x _ _ => by rw [h5]
  have hlt : s.lo < s.hi := by rw [h3, h4]; exact hpq
  cases l with
  | nil =>
    refine ⟨[s], ?_, ?_⟩
    · rw [pieces, h1]; rfl
    · rw [endOf, ← h3, ← h4]
      exact Chain.one s h2 hlt hagree
  | cons r l =>
    obtain ⟨t, ht, hch⟩ := laterPieces_chain f l q r (List.pairwise_cons.1 hs).2 hc'.2 (lt_ne_ninf hpq)
    refine ⟨s :: t, ?_, ?_⟩
    · rw [pieces, h1, ht]; rfl
    · rw [← h3]
      rw [← h4] at hch
      exact Chain.cons s h2 hlt hagree hch

/-! Short chains -/

section short
variable {f g : ℝ → ℝ}

theorem chain_line {b1 b2 : ℝ} (p : Pole) (h : b1 < b2) (hfg : ∀ᵐ x, g x = f x) :
    Chain f .ninf .pinf [.minf b1 g, .fin p b1 b2 g, .pinf b2 g] := by
  have hf : ∀ s : Seg ℝ, s.fn = g → ∀ᵐ x : ℝ, s.lo ≤ .fin x → .fin x < s.hi → s.fn x = f x := by
    intro s hs
    filter_upwards [hfg] with x hx _ _
    rw [hs, hx]
  exact Chain.cons (.minf b1 g) rfl (ninf_lt_fin b1) (hf _ rfl) (Chain.cons (.fin p b1 b2 g) rfl (Ext.fin_lt_fin.2 h)
    (hf _ rfl) (Chain.one (.pinf b2 g) rfl (fin_lt_pinf b2) (hf _ rfl)))

theorem chain_line4 {b1 b2 b3 : ℝ} (p p' : Pole) (h : b1 < b2) (h' : b2 < b3) (hfg : ∀ᵐ x, g x = f x) :
    Chain f .ninf .pinf [.minf b1 g, .fin p b1 b2 g, .fin p' b2 b3 g, .pinf b3 g] := by
  have hf : ∀ s : Seg ℝ, s.fn = g → ∀ᵐ x : ℝ, s.lo ≤ .fin x → .fin x < s.hi → s.fn x = f x := by
    intro s hs
    filter_upwards [hfg] with x hx _ _
    rw [hs, hx]
  exact Chain.cons (.minf b1 g) rfl (ninf_lt_fin b1) (hf _ rfl) (Chain.cons (.fin p b1 b2 g) rfl (Ext.fin_lt_fin.2 h)
    (hf _ rfl) (Chain.cons (.fin p' b2 b3 g) rfl (Ext.fin_lt_fin.2 h') (hf _ rfl)
      (Chain.one (.pinf b3 g) rfl (fin_lt_pinf b3) (hf _ rfl))))

theorem chain_half {a b : ℝ} (p : Pole) (h : a < b) (hfg : ∀ᵐ x, a ≤ x → g x = f x) :
    Chain f (.fin a) .pinf [.fin p a b g, .pinf b g] := by
  refine Chain.cons (.fin p a b g) rfl (Ext.fin_lt_fin.2 h) ?_ (Chain.one (.pinf b g) rfl (fin_lt_pinf b) ?_)
  · filter_upwards [hfg] with x hx h1 _
    exact hx (Ext.fin_le_fin.1 h1)
  · filter_upwards [hfg] with x hx h1 _
    exact hx (h.le.trans (Ext.fin_le_fin.1 h1))

theorem chain_half3 {a b c : ℝ} (p p' : Pole) (h : a < b) (h' : b < c) (hfg : ∀ᵐ x, a ≤ x → g x = f x) :
    Chain f (.fin a) .pinf [.fin p a b g, .fin p' b c g, .pinf c g] := by
  refine Chain.cons (.fin p a b g) rfl (Ext.fin_lt_fin.2 h) ?_ (chain_half p' h' ?_)
  · filter_upwards [hfg] with x hx h1 _
    exact hx (Ext.fin_le_fin.1 h1)
  · filter_upwards [hfg] with x hx h1
    exact hx (h.le.trans h1)

theorem chain_half4 {a b c d : ℝ} (p p' p'' : Pole) (h : a < b) (h' : b < c) (h'' : c < d)
    (hfg : ∀ᵐ x, a ≤ x → g x = f x) :
    Chain f (.fin a) .pinf [.fin p a b g, .fin p' b c g, .fin p'' c d g, .pinf d g] := by
  refine Chain.cons (.fin p a b g) rfl (Ext.fin_lt_fin.2 h) ?_ (chain_half3 p' p'' h' h'' ?_)
  · filter_upwards [hfg] with x hx h1 _
    exact hx (Ext.fin_le_fin.1 h1)
  · filter_upwards [hfg] with x hx h1
    exact hx (h.le.trans h1)

theorem chain_fin2 {a b c : ℝ} (p p' : Pole) (h : a < b) (h' : b < c) (hfg : ∀ᵐ x, a ≤ x → x < c → g x = f x) :
    Chain f (.fin a) (.fin c) [.fin p a b g, .fin p' b c g] := by
  refine Chain.cons (.fin p a b g) rfl (Ext.fin_lt_fin.2 h) ?_ (Chain.one (.fin p' b c g) rfl (Ext.fin_lt_fin.2 h') ?_)
  · filter_upwards [hfg] with x hx h1 h2
    exact hx (Ext.fin_le_fin.1 h1) ((Ext.fin_lt_fin.1 h2).trans h')
  · filter_upwards [hfg] with x hx h1 h2
    exact hx (h.le.trans (Ext.fin_le_fin.1 h1)) (Ext.fin_lt_fin.1 h2)

theorem chain_fin3 {a b c d : ℝ} (p p' p'' : Pole) (h : a < b) (h' : b < c) (h'' : c < d)
    (hfg : ∀ᵐ x, a ≤ x → x < d → g x = f x) :
    Chain f (.fin a) (.fin d) [.fin p a b g, .fin p' b c g, .fin p'' c d g] := by
  refine Chain.cons (.fin p a b g) rfl (Ext.fin_lt_fin.2 h) ?_ (chain_fin2 p' p'' h' h'' ?_)
  · filter_upwards [hfg] with x hx h1 h2
    exact hx (Ext.fin_le_fin.1 h1) ((Ext.fin_lt_fin.1 h2).trans (h'.trans h''))
  · filter_upwards [hfg] with x hx h1 h2
    exact hx (h.le.trans h1) h2

end short

theorem ext_line : ext .ninf .pinf = Set.univ :=
  Set.eq_univ_of_forall fun x => ⟨(ninf_lt_fin x).le, fin_lt_pinf x⟩

theorem ext_half (a : ℝ) : ext (.fin a) .pinf = Set.Ici a :=
  Set.ext fun x => ⟨fun h => Ext.fin_le_fin.1 h.1, fun h => ⟨Ext.fin_le_fin.2 h, fin_lt_pinf x⟩⟩

theorem ext_fin (a b : ℝ) : ext (.fin a) (.fin b) = Set.Ico a b :=
  Set.ext fun x => ⟨fun h => ⟨Ext.fin_le_fin.1 h.1, Ext.fin_lt_fin.1 h.2⟩,
    fun h => ⟨Ext.fin_le_fin.2 h.1, Ext.fin_lt_fin.2 h.2⟩⟩

theorem restrict_eq {f : ℝ → ℝ} {S : Set ℝ} (hS : MeasurableSet S) (h0 : ∀ x ∉ S, f x = 0) :
    (volume.restrict S).withDensity (fun x => ENNReal.ofReal (f x)) = volume.withDensity fun x => ENNReal.ofReal (f x) := by
  rw [← withDensity_indicator hS]
  congr 1
  ext x
  by_cases h : x ∈ S
  · rw [Set.indicator_of_mem h]
  · rw [Set.indicator_of_notMem h, h0 x h, ENNReal.ofReal_zero]

/-- A chain of a nonnegative measurable function which vanishes elsewhere represents the measure with that density. -/
theorem Chain.rep_density {f : ℝ → ℝ} {lo hi : Ext ℝ} {l : PF ℝ} (h : Chain f lo hi l) {eps : ℝ} (he : 0 ≤ eps)
    (hm : Measurable f) (hnn : ∀ x, 0 ≤ f x) (h0 : ∀ x ∉ ext lo hi, f x = 0)
    (hfin : IsFiniteMeasure (volume.withDensity fun x => ENNReal.ofReal (f x))) :
    Rep eps (PF.addAll eps [] l) (volume.withDensity fun x => ENNReal.ofReal (f x)) :=
  h.rep he hm.aestronglyMeasurable (Filter.Eventually.of_forall hnn) (restrict_eq (measurableSet_ext _ _) h0)

/-- a nonnegative function of integral 1 is the density of a probability measure -/
theorem prob_of_integral {f : ℝ → ℝ} (hnn : ∀ x, 0 ≤ f x) (h1 : ∫ x, f x = 1) :
    IsProbabilityMeasure (volume.withDensity fun x => ENNReal.ofReal (f x)) := by
  have hi : Integrable f := by
    by_contra h
    rw [integral_undef h] at h1
    exact zero_ne_one h1
  constructor
  rw [withDensity_apply _ MeasurableSet.univ, setLIntegral_univ,
    ← ofReal_integral_eq_lintegral_ofReal hi (Filter.Eventually.of_forall hnn), h1, ENNReal.ofReal_one]

end Pacal.Standard
