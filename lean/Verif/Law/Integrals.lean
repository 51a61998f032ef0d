import Verif.Law.Lemmas

/-! What `segIntegral` of each kind of segment computes, with exact quadrature. -/

namespace Pacal
open MeasureTheory Set Transform

/-- exact quadrature and admissible numerical parameters -/
structure ExactQ (q : Quad) (p : QPar) : Prop where
  exact : Exact q
  eps : p.eps = 0
  cond : 1 < p.cond
  expInf : 0 < p.expInf
  expPole : 0 < p.expPole

theorem setIntegral_Iic_of_support {g : ℝ → ℝ} {a b : ℝ} (hg : ∀ t, t < a ∨ b < t → g t = 0) (hab : a ≤ b) (x : ℝ) :
    ∫ t in a..min x b, g t = ∫ t in Iic x, g t := by
  rcases le_total a x with h | h
  · rw [intervalIntegral.integral_of_le (le_min h hab), ← integral_Icc_eq_integral_Ioc]
    symm
    refine setIntegral_eq_of_subset_of_forall_sdiff_eq_zero measurableSet_Iic
      (fun t ht => ht.2.trans (min_le_left _ _)) ?_
    rintro t ⟨ht, hn⟩
    apply hg
    by_contra hc
    push Not at hc
    exact hn ⟨hc.1, le_min ht hc.2⟩
  · have e : min x b = x := min_eq_left (h.trans hab)
    rw [e, intervalIntegral.integral_of_ge h]
    have z1 : ∫ t in Ioc x a, g t = 0 := by
      rw [integral_Ioc_eq_integral_Ioo]
      exact setIntegral_eq_zero_of_forall_eq_zero fun t ht => hg t (.inl ht.2)
    have z2 : ∫ t in Iic x, g t = 0 := by
      rw [integral_Iic_eq_integral_Iio]
      exact setIntegral_eq_zero_of_forall_eq_zero fun t ht => hg t (.inl (lt_of_lt_of_le ht h))
    rw [z1, z2, neg_zero]

/-- the power substitutions compute oriented integrals -/
theorem xnP_eq {q : Quad} {p : QPar} (h : ExactQ q p) (f : ℝ → ℝ) (a b : ℝ) :
    (xnP q p.eps f a b p.expPole).1 = ∫ t in a..b, f t := by
  unfold xnP
  rw [h.exact, h.eps]
  simp only [mul_zero, add_zero]
  rcases le_total a b with hab | hab
  · rw [xn_core hab h.expPole, intervalIntegral.integral_of_le hab, integral_Icc_eq_integral_Ioc]
  · have e := xn_core_neg hab h.expPole f
    rw [intervalIntegral.integral_of_ge hab, ← integral_Icc_eq_integral_Ioc, ← e, ← intervalIntegral.integral_neg]
    refine intervalIntegral.integral_congr fun t _ => ?_
    show p.expPole * (b - a) * f (t ^ p.expPole * (b - a) + a) * t ^ (p.expPole - 1) =
      -(p.expPole * (a - b) * f (a - t ^ p.expPole * (a - b)) * t ^ (p.expPole - 1))
    rw [show a - t ^ p.expPole * (a - b) = t ^ p.expPole * (b - a) + a by ring]
    ring

theorem xnN_eq {q : Quad} {p : QPar} (h : ExactQ q p) (f : ℝ → ℝ) (a b : ℝ) :
    (xnN q p.eps f a b p.expPole).1 = ∫ t in a..b, f t := by
  unfold xnN
  rw [h.exact, h.eps]
  simp only [mul_zero, sub_zero]
  rcases le_total a b with hab | hab
  · rw [xn_core_neg hab h.expPole, intervalIntegral.integral_of_le hab, integral_Icc_eq_integral_Ioc]
  · have e := xn_core hab h.expPole f
    rw [intervalIntegral.integral_of_ge hab, ← integral_Icc_eq_integral_Ioc, ← e, ← intervalIntegral.integral_neg]
    refine intervalIntegral.integral_congr fun t _ => ?_
    show p.expPole * (b - a) * f (b - t ^ p.expPole * (b - a)) * t ^ (p.expPole - 1) =
      -(p.expPole * (a - b) * f (t ^ p.expPole * (a - b) + b) * t ^ (p.expPole - 1))
    rw [show b - t ^ p.expPole * (b - a) = t ^ p.expPole * (a - b) + b by ring]
    ring

theorem clipLo_self (a : ℝ) : clipLo a (a : WithBot ℝ) = a := by
  show (if a < a then a else a) = a
  simp

theorem clipHi_coe (b x : ℝ) : clipHi b (x : WithTop ℝ) = min x b := by
  show (if x > b then b else x) = min x b
  split_ifs with h
  · exact (min_eq_right h.le).symm
  · exact (min_eq_left (not_lt.1 h)).symm

theorem clipLo_coe (a x : ℝ) : clipLo a (x : WithBot ℝ) = max x a := by
  show (if x < a then a else x) = max x a
  split_ifs with h
  · exact (max_eq_right h.le).symm
  · exact (max_eq_left (not_lt.1 h)).symm

theorem fin_val (pole : Pole) (a b : ℝ) (f : ℝ → ℝ) (t : ℝ) :
    (Seg.fin pole a b f).val t = if a ≤ t ∧ t < b then f t else 0 := by
  simp [Seg.val, Seg.isDirac, Seg.lo, Seg.hi, Seg.fn, Ext.fin]

theorem const_val (a b c t : ℝ) : (Seg.const a b c).val t = if a ≤ t ∧ t < b then c else 0 := by
  simp [Seg.val, Seg.isDirac, Seg.lo, Seg.hi, Seg.fn, Ext.fin]

theorem minf_val (b : ℝ) (f : ℝ → ℝ) (t : ℝ) : (Seg.minf b f).val t = if t < b then f t else 0 := by
  simp [Seg.val, Seg.isDirac, Seg.lo, Seg.hi, Seg.fn, Ext.fin, Ext.ninf]

theorem pinf_val (a : ℝ) (f : ℝ → ℝ) (t : ℝ) : (Seg.pinf a f).val t = if a ≤ t then f t else 0 := by
  have h : ((t : WithTop ℝ) : WithBot (WithTop ℝ)) < ⊤ := WithBot.coe_lt_coe.2 (WithTop.coe_lt_top t)
  simp [Seg.val, Seg.isDirac, Seg.lo, Seg.hi, Seg.fn, Ext.fin, Ext.pinf, h]

theorem fin_call (pole : Pole) (a b : ℝ) (f : ℝ → ℝ) (t : ℝ) :
    (Seg.fin pole a b f).call t = if a ≤ t ∧ t ≤ b then f t else 0 := by
  simp [Seg.call, Seg.lo, Seg.hi, Seg.fn, Ext.fin]

/-- `call` and `val` differ at the right end only -/
theorem fin_call_ae (pole : Pole) (a b : ℝ) (f : ℝ → ℝ) :
    (fun t => (Seg.fin pole a b f).call t) =ᵐ[volume] fun t => (Seg.fin pole a b f).val t := by
  have : ∀ᵐ t ∂(volume : Measure ℝ), t ≠ b := by simp [ae_iff]
  filter_upwards [this] with t ht
  rw [fin_call, fin_val]
  refine if_congr ?_ rfl rfl
  exact and_congr_right fun _ => ⟨fun h => lt_of_le_of_ne h ht, le_of_lt⟩

theorem fin_call_interval (pole : Pole) (a b : ℝ) (f : ℝ → ℝ) (u v : ℝ) :
    ∫ t in u..v, (Seg.fin pole a b f).call t = ∫ t in u..v, (Seg.fin pole a b f).val t := by
  refine intervalIntegral.integral_congr_ae ?_
  filter_upwards [fin_call_ae pole a b f] with t ht _ using ht

/-- not a right tail -/
def Seg.isPInf : Seg ℝ → Bool
  | .pinf _ _ => true
  | _ => false

/-- constants extend to the left of their interval when `cumint` is evaluated there -/
def Seg.constOk (x : ℝ) : Seg ℝ → Prop
  | .const a _ c => a ≤ x ∨ c = 0
  | _ => True

theorem fin_segIntegral {q : Quad} {p : QPar} (h : ExactQ q p) {pole : Pole} {a b : ℝ} {f : ℝ → ℝ} (hab : a < b)
    (hi : Integrable (fun t => (Seg.fin pole a b f).val t) volume) (x : ℝ) :
    (Seg.fin pole a b f).segIntegral q p x = ∫ t in Iic x, (Seg.fin pole a b f).val t := by
  rw [← setIntegral_Iic_of_support (a := a) (b := b) (fun t ht => by
    rw [fin_val, if_neg]; rintro ⟨h1, h2⟩; rcases ht with ht | ht <;> linarith) hab.le x]
  have ii : ∀ u v, IntervalIntegrable (fun t => (Seg.fin pole a b f).val t) volume u v :=
    fun u v => hi.intervalIntegrable
  cases pole with
  | none =>
    show (q _ (clipLo a a) (clipHi b x)).1 = _
    rw [h.exact, clipLo_self, clipHi_coe, fin_call_interval]
  | left =>
    show (if clipLo a a = clipHi b x then 0 else
      (xnP q p.eps (Seg.fin .left a b f).call (clipLo a a) (clipHi b x) p.expPole).1) = _
    rw [clipLo_self, clipHi_coe, xnP_eq h, fin_call_interval]
    split_ifs with e
    · rw [← e, intervalIntegral.integral_same]
    · rfl
  | right =>
    show (if clipLo a a = clipHi b x then 0 else if clipHi b x = b then
      (xnN q p.eps (Seg.fin .right a b f).call (clipLo a a) (clipHi b x) p.expPole).1 else
      (xnN q p.eps (Seg.fin .right a b f).call (clipLo a a) b p.expPole).1 -
      (xnN q p.eps (Seg.fin .right a b f).call (clipHi b x) b p.expPole).1) = _
    rw [clipLo_self, clipHi_coe, xnN_eq h, xnN_eq h, xnN_eq h, fin_call_interval, fin_call_interval, fin_call_interval]
    split_ifs with e e'
    · rw [← e, intervalIntegral.integral_same]
    · rfl
    · rw [← intervalIntegral.integral_add_adjacent_intervals (ii a (min x b)) (ii (min x b) b)]; ring

theorem const_segIntegral (q : Quad) (p : QPar) {a b c : ℝ} (hab : a < b) {x : ℝ} (hc : a ≤ x ∨ c = 0) :
    (Seg.const a b c).segIntegral q p x = ∫ t in Iic x, (Seg.const a b c).val t := by
  show c * (clipHi b x - clipLo a a) = _
  rw [clipLo_self, clipHi_coe]
  rcases hc with hx | rfl
  · rw [← setIntegral_Iic_of_support (a := a) (b := b) (fun t ht => by
      rw [const_val, if_neg]; rintro ⟨h1, h2⟩; rcases ht with ht | ht <;> linarith) hab.le x,
      intervalIntegral.integral_of_le (le_min hx hab.le), integral_Ioc_eq_integral_Ioo,
      setIntegral_congr_fun (g := fun _ => c) measurableSet_Ioo (fun t ht => by
        show (Seg.const a b c).val t = c
        rw [const_val, if_pos ⟨ht.1.le, ht.2.trans_le (min_le_right _ _)⟩])]
    have : a ≤ min x b := le_min hx hab.le
    simp [Measure.real, Real.volume_Ioo, ENNReal.toReal_ofReal (sub_nonneg.2 this)]
    ring
  · simp [const_val]

theorem minf_segIntegral {q : Quad} {p : QPar} (h : ExactQ q p) (b : ℝ) (f : ℝ → ℝ) (x : ℝ) :
    (Seg.minf b f).segIntegral q p x = ∫ t in Iic x, (Seg.minf b f).val t := by
  show (fejerM q f (some (clipHi b x)) none p.expInf).1 = _
  rw [clipHi_coe]
  refine ((C57_fejer_infinite h.exact f (min x b) h.expInf).2.2 : _).trans ?_
  have e : (fun t => (Seg.minf b f).val t) = (Iio b).indicator f := by
    funext t; rw [minf_val]; simp [indicator]
  rw [e, setIntegral_indicator measurableSet_Iio, ← Iio_inter_Iio]
  exact setIntegral_congr_set (Iio_ae_eq_Iic.inter (ae_eq_refl _))

theorem pinf_segIntegral {q : Quad} {p : QPar} (h : ExactQ q p) (a : ℝ) (f : ℝ → ℝ) (x : ℝ) :
    (Seg.pinf a f).segIntegral q p x = ∫ t in Ioi x, (Seg.pinf a f).val t := by
  show (fejerP q f (some (clipLo a x)) none p.expInf).1 = _
  rw [clipLo_coe]
  refine ((C57_fejer_infinite h.exact f (max x a) h.expInf).2.1 : _).trans ?_
  have e : (fun t => (Seg.pinf a f).val t) = (Ici a).indicator f := by
    funext t; rw [pinf_val]; simp [indicator]
  rw [e, setIntegral_indicator measurableSet_Ici, show Ioi (max x a) = Ioi x ∩ Ioi a from (Ioi_inter_Ioi).symm]
  exact setIntegral_congr_set ((ae_eq_refl _).inter Ioi_ae_eq_Ici)

/-- the cumulated piece at a point: start value plus the mass of the piece up to `x` (right tails: start value
minus the mass beyond `x`) -/
theorem cumint_fn {q : Quad} {p : QPar} (h : ExactQ q p) {s : Seg ℝ} (hs : s.isDirac = false) (hw : s.WF) (hd : s.Dens)
    {x : ℝ} (hc : s.constOk x) (y : ℝ) :
    (s.cumint q p y).fn x = y + s.law.real (Iic x) - (if s.isPInf then s.law.real univ else 0) := by
  have hi := ((Seg.dens_of_not hs).1 hd).2
  rw [Seg.law_real hs hd measurableSet_Iic]
  cases s with
  | dirac a m => simp [Seg.isDirac] at hs
  | fin pole a b f =>
    show y + _ = _
    rw [fin_segIntegral h hw hi]; simp [Seg.isPInf]
  | const a b c =>
    show y + _ = _
    rw [const_segIntegral q p hw hc]; simp [Seg.isPInf]
  | minf b f =>
    show y + _ = _
    rw [minf_segIntegral h]; simp [Seg.isPInf]
  | pinf a f =>
    show y - _ = _
    rw [pinf_segIntegral h, Seg.law_real hs hd MeasurableSet.univ]
    have := integral_add_compl (μ := volume) (f := fun t => (Seg.pinf a f).val t) (measurableSet_Iic (a := x)) hi
    rw [compl_Iic] at this
    simp only [Seg.isPInf, if_true, setIntegral_univ]
    linarith

theorem dirac_cumint_fn (q : Quad) (p : QPar) (a m y : ℝ) : ((Seg.dirac a m).cumint q p y).fn a = y + m := by
  show y + (if _ then m else 0) = y + m
  rw [if_pos]
  exact .inr ⟨rfl, rfl⟩

/-- the start value added by `cumint` before a right tail is the mass of the tail -/
theorem pinf_integrate {q : Quad} {p : QPar} (h : ExactQ q p) {a : ℝ} {f : ℝ → ℝ} (hd : (Seg.pinf a f).Dens) :
    (Seg.pinf a f).integrate q p (a : WithBot ℝ) ⊤ = (Seg.pinf a f).law.real univ := by
  have e := pinf_segIntegral h a f a
  rw [show (Seg.pinf a f).segIntegral q p a = (Seg.pinf a f).integrate q p (a : WithBot ℝ) ⊤ from rfl] at e
  rw [e, Seg.law_real rfl hd MeasurableSet.univ, setIntegral_univ, ← integral_Ici_eq_integral_Ioi]
  refine setIntegral_eq_integral_of_forall_compl_eq_zero fun t ht => ?_
  rw [pinf_val, if_neg]
  simpa using ht

end Pacal
