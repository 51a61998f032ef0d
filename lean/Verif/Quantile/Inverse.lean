import Verif.Quantile.Shape
import Verif.Util.PropsRoots
import Verif.Segments.Op

/-! `inverse_scalar` on the pieces of a CDF returns a quantile. -/

namespace Pacal
open MeasureTheory Set Transform Filter Topology

namespace Quantile
open Roots

/-- an ideal root finder: a zero of a continuous function with a sign change, inside the bracket -/
def ExactFinder (S : Finder ℝ) : Prop :=
  ∀ (g : ℝ → ℝ) (a b : ℝ), a ≤ b → ContinuousOn g (Icc a b) → g a ≤ 0 → 0 ≤ g b →
    ∃ x ∈ Icc a b, S g a b = .ok x ∧ g x = 0

variable {μ : Measure ℝ} {c : PF ℝ} {y : ℝ}

theorem isQuantile_coe {x : ℝ} : IsQuantile μ y (x : EReal) ↔ μ.real (Iio x) ≤ y ∧ y ≤ μ.real (Iic x) := by
  have h1 : {t : ℝ | (t : EReal) < (x : EReal)} = Iio x := by ext t; simp
  have h2 : {t : ℝ | (t : EReal) ≤ (x : EReal)} = Iic x := by ext t; simp
  rw [IsQuantile, h1, h2]

theorem isQuantile_bot (hy : y = 0) : IsQuantile μ y ⊥ := by
  subst hy
  constructor
  · have : {t : ℝ | (t : EReal) < ⊥} = ∅ := by ext t; simp
    rw [this]; simp
  · exact measureReal_nonneg

theorem isQuantile_top [IsProbabilityMeasure μ] (hy : y = 1) : IsQuantile μ y ⊤ := by
  subst hy
  constructor
  · exact measureReal_le_one
  · have : {t : ℝ | (t : EReal) ≤ ⊤} = univ := by ext t; simp
    rw [this, probReal_univ]

theorem tendsto_Iic_atBot [IsFiniteMeasure μ] : Tendsto (fun x : ℝ => μ.real (Iic x)) atBot (𝓝 0) := by
  have := tendsto_measure_iInter_atBot (μ := μ) (s := fun r : ℝ => Iic r)
    (fun r => measurableSet_Iic.nullMeasurableSet) (fun i j hij => Iic_subset_Iic.2 hij) ⟨0, measure_ne_top _ _⟩
  rw [iInter_Iic_eq_empty_iff.2 (by simp), measure_empty] at this
  have := (ENNReal.tendsto_toReal ENNReal.zero_ne_top).comp this
  rwa [ENNReal.toReal_zero] at this

theorem tendsto_Iic_atTop [IsFiniteMeasure μ] : Tendsto (fun x : ℝ => μ.real (Iic x)) atTop (𝓝 (μ.real univ)) :=
  (ENNReal.tendsto_toReal (measure_ne_top _ _)).comp (tendsto_measure_Iic_atTop μ)

theorem tendsto_Iio_atTop [IsFiniteMeasure μ] : Tendsto (fun x : ℝ => μ.real (Iio x)) atTop (𝓝 (μ.real univ)) := by
  refine tendsto_of_tendsto_of_tendsto_of_le_of_le (g := fun x : ℝ => μ.real (Iic (x - 1)))
    ((tendsto_Iic_atTop (μ := μ)).comp (tendsto_atTop_add_const_right atTop (-1) tendsto_id)) tendsto_const_nhds
    (fun x => measureReal_mono fun t (ht : t ≤ x - 1) => show t < x by linarith) fun x => measureReal_mono (subset_univ _)

/-- values at the ends of the pieces -/
theorem minf_lim [IsFiniteMeasure μ] (h : IsCdf μ c) {b : ℝ} {f : ℝ → ℝ} (hs : Seg.minf b f ∈ c) : Tendsto f atBot (𝓝 0) := by
  refine tendsto_of_tendsto_of_tendsto_of_le_of_le' tendsto_const_nhds (tendsto_Iic_atBot (μ := μ)) ?_ ?_
  · filter_upwards [eventually_le_atBot b] with x hx
    exact measureReal_nonneg.trans (h.sand _ hs x bot_le (Ext.fin_le_fin.2 hx)).1
  · filter_upwards [eventually_le_atBot b] with x hx
    exact (h.sand _ hs x bot_le (Ext.fin_le_fin.2 hx)).2

theorem pinf_lim [IsFiniteMeasure μ] (h : IsCdf μ c) {a : ℝ} {f : ℝ → ℝ} (hs : Seg.pinf a f ∈ c) :
    Tendsto f atTop (𝓝 (μ.real univ)) := by
  refine tendsto_of_tendsto_of_tendsto_of_le_of_le' tendsto_Iio_atTop tendsto_Iic_atTop ?_ ?_
  · filter_upwards [eventually_ge_atTop a] with x hx
    exact (h.sand _ hs x (Ext.fin_le_fin.2 hx) le_top).1
  · filter_upwards [eventually_ge_atTop a] with x hx
    exact (h.sand _ hs x (Ext.fin_le_fin.2 hx) le_top).2

theorem valLo_minf [IsFiniteMeasure μ] (h : IsCdf μ c) {b : ℝ} {f : ℝ → ℝ} (hs : Seg.minf b f ∈ c) :
    (Seg.minf b f).valLo = 0 := (minf_lim h hs).limUnder_eq

theorem valHi_pinf [IsProbabilityMeasure μ] (h : IsCdf μ c) {a : ℝ} {f : ℝ → ℝ} (hs : Seg.pinf a f ∈ c) :
    (Seg.pinf a f).valHi = 1 := by
  have := (pinf_lim h hs).limUnder_eq
  rwa [probReal_univ] at this

theorem valLo_fin (h : IsCdf μ c) {s : Seg ℝ} (hs : s ∈ c) {a : ℝ} (ha : s.lo = .fin a) : s.valLo = s.fn a := by
  have := (h.wf s hs).2
  cases s <;> simp_all [Seg.lo, Ext.fin, Ext.ninf, Seg.valLo, Seg.fn, Seg.isDirac]

theorem valHi_fin (h : IsCdf μ c) {s : Seg ℝ} (hs : s ∈ c) {b : ℝ} (hb : s.hi = .fin b) : s.valHi = s.fn b := by
  have := (h.wf s hs).2
  cases s <;> simp_all [Seg.hi, Ext.fin, Ext.pinf, Seg.valHi, Seg.fn, Seg.isDirac]

theorem hit_le [IsProbabilityMeasure μ] (h : IsCdf μ c) {s : Seg ℝ} (hs : s ∈ c) (hh : Hit y s) :
    s.valLo ≤ y ∧ y ≤ s.valHi := by
  rcases hh with hh | ⟨h1, h2⟩
  · exact hh
  -- the values of a piece increase
  have key : s.valLo ≤ s.valHi := by
    have hw := h.wf s hs
    cases s with
    | minf b f =>
      rw [valLo_minf h hs]
      exact measureReal_nonneg.trans (h.sand _ hs b bot_le le_rfl).1
    | pinf a f =>
      rw [valHi_pinf h hs]
      exact (h.sand _ hs a le_rfl le_top).2.trans measureReal_le_one
    | fin p a b f =>
      have hab : a < b := hw.1
      exact ((h.sand _ hs a le_rfl (Ext.fin_le_fin.2 hab.le)).2.trans
        (measureReal_mono fun t ht => lt_of_le_of_lt ht hab)).trans (h.sand _ hs b (Ext.fin_le_fin.2 hab.le) le_rfl).1
    | const a b f => exact le_rfl
    | dirac a m => simp [Seg.isDirac] at hw
  exact ⟨le_of_eq (le_antisymm (key.trans h2) h1), le_of_eq (le_antisymm (h1.trans key) h2)⟩

theorem minfLoop_fuel {fin : ℝ → Bool} {fn : ℝ → ℝ} {d : ℝ} {r : ℝ × ℝ} : ∀ (N : ℕ) {a b : ℝ}, minfLoop fin fn d N a b = .ok r →
    ∀ fuel, N ≤ fuel → minfLoop fin fn d fuel a b = .ok r
  | 0, a, b, h, fuel, _ => by
    rw [minfLoop.eq_def] at h ⊢
    dsimp only at h ⊢
    split_ifs at h ⊢
    exact h
  | N + 1, a, b, h, fuel, hf => by
    obtain ⟨k, rfl⟩ := Nat.exists_eq_add_of_le' (show 1 ≤ fuel by omega)
    rw [minfLoop] at h ⊢
    split_ifs at h ⊢
    · exact minfLoop_fuel N h k (by omega)
    exact h

theorem pinfLoop_fuel {fin : ℝ → Bool} {fn : ℝ → ℝ} {d : ℝ} {r : ℝ × ℝ} : ∀ (N : ℕ) {a b : ℝ}, pinfLoop fin fn d N a b = .ok r →
    ∀ fuel, N ≤ fuel → pinfLoop fin fn d fuel a b = .ok r
  | 0, a, b, h, fuel, _ => by
    rw [pinfLoop.eq_def] at h ⊢
    dsimp only at h ⊢
    split_ifs at h ⊢
    exact h
  | N + 1, a, b, h, fuel, hf => by
    obtain ⟨k, rfl⟩ := Nat.exists_eq_add_of_le' (show 1 ≤ fuel by omega)
    rw [pinfLoop] at h ⊢
    split_ifs at h ⊢
    · exact pinfLoop_fuel N h k (by omega)
    · exact h

/-- the inverse on one piece is a quantile -/
theorem solveSeg_spec [IsProbabilityMeasure μ] (h : IsCdf μ c) {S : Finder ℝ} (hS : ExactFinder S) {s : Seg ℝ} (hs : s ∈ c)
    (hy0 : 0 ≤ y) (hy1 : y ≤ 1) (hh : Hit y s) :
    ∃ x, IsQuantile μ y x ∧ ∃ N, ∀ fuel, N ≤ fuel → solveSeg ⟨S, fun _ => true, fuel⟩ y s = .ok (some x) := by
  obtain ⟨h1, h2⟩ := hit_le h hs hh
  have hw := h.wf s hs
  have root : ∀ a b x : ℝ, s.lo ≤ .fin a → .fin b ≤ s.hi → x ∈ Icc a b → s.fn x - y = 0 → IsQuantile μ y (x : EReal) := by
    intro a b x ha hb hx h0
    have := h.sand s hs x (ha.trans (Ext.fin_le_fin.2 hx.1)) ((Ext.fin_le_fin.2 hx.2).trans hb)
    rw [sub_eq_zero.1 h0] at this
    exact isQuantile_coe.2 this
  have cont : ∀ a b : ℝ, s.lo ≤ .fin a → .fin b ≤ s.hi → ContinuousOn (fun t => s.fn t - y) (Icc a b) :=
    fun a b ha hb => (h.cont s hs a b ha hb).sub continuousOn_const
  cases s with
  | minf b f =>
    by_cases hy : y = 0
    · exact ⟨⊥, isQuantile_bot hy, 0, fun fuel _ => by simp [solveSeg, hy]⟩
    have hyp : 0 < y := lt_of_le_of_ne hy0 (Ne.symm hy)
    -- the function is below the level far to the left
    obtain ⟨m, hm⟩ : ∃ m, ∀ x ≤ m, f x ≤ y := by
      have := (minf_lim h hs).eventually (eventually_le_nhds hyp)
      exact eventually_atBot.1 this
    obtain ⟨N, hN⟩ := exists_nat_ge ((b - max 1 (1 / 10 * |b|)) - m)
    obtain ⟨⟨a', b'⟩, hr⟩ := minfLoop_term (fun _ => true) f y m hm N (b - max 1 (1 / 10 * |b|)) b (by
      have := le_max_left 1 (1 / 10 * |b|); linarith) hN
    have hlt : b - max 1 (1 / 10 * |b|) < b := by
      have : 0 < max 1 (1 / 10 * |b|) := lt_of_lt_of_le one_pos (le_max_left _ _)
      linarith
    obtain ⟨g1, g2, g3, g4⟩ := minfLoop_spec _ _ _ _ _ _ _ _ hr hlt h2
    have hb' : Ext.fin b' ≤ (Seg.minf b f).hi := Ext.fin_le_fin.2 g2
    obtain ⟨x, hx, hS1, hS2⟩ := hS (fun t => f t - y) a' b' g1.le (cont a' b' bot_le hb')
      (sub_nonpos.2 (g4 rfl)) (sub_nonneg.2 g3)
    refine ⟨x, root a' b' x bot_le hb' hx hS2, N, fun fuel hf => ?_⟩
    have h2' : y ≤ f b := h2
    have hr := minfLoop_fuel N hr fuel hf
    simp only [solveSeg, hy, if_false, findinvMinf, h2', not_true_eq_false, hr, findinv]
    simp [Bind.bind, Except.bind, hS1, Except.map, resFlt]
  | pinf a f =>
    by_cases hy : y = 1
    · exact ⟨⊤, isQuantile_top hy, 0, fun fuel _ => by simp [solveSeg, hy]⟩
    have hyp : y < 1 := lt_of_le_of_ne hy1 hy
    obtain ⟨m, hm⟩ : ∃ m, ∀ x, m ≤ x → y ≤ f x := by
      have h' := pinf_lim h hs
      rw [probReal_univ] at h'
      exact eventually_atTop.1 (h'.eventually (eventually_ge_nhds hyp))
    obtain ⟨N, hN⟩ := exists_nat_ge (m - (a + max 1 (1 / 10 * |a|)))
    obtain ⟨⟨a', b'⟩, hr⟩ := pinfLoop_term (fun _ => true) f y m hm N a (a + max 1 (1 / 10 * |a|)) (by
      have := le_max_left 1 (1 / 10 * |a|); linarith) hN
    have hlt : a < a + max 1 (1 / 10 * |a|) := by
      have : 0 < max 1 (1 / 10 * |a|) := lt_of_lt_of_le one_pos (le_max_left _ _)
      linarith
    obtain ⟨g1, g2, g3, g4⟩ := pinfLoop_spec _ _ _ _ _ _ _ _ hr hlt h1
    have ha' : (Seg.pinf a f).lo ≤ Ext.fin a' := Ext.fin_le_fin.2 g2
    obtain ⟨x, hx, hS1, hS2⟩ := hS (fun t => f t - y) a' b' g1.le (cont a' b' ha' le_top)
      (sub_nonpos.2 g3) (sub_nonneg.2 (g4 rfl))
    refine ⟨x, root a' b' x ha' le_top hx hS2, N, fun fuel hf => ?_⟩
    have h1' : f a ≤ y := h1
    have hr := pinfLoop_fuel N hr fuel hf
    simp only [solveSeg, hy, if_false, findinvPinf, if_true, one_mul, sub_nonpos, h1', not_true_eq_false, hr, findinv]
    simp [Bind.bind, Except.bind, hS1, Except.map, resFlt]
  | fin p a b f =>
    have hab : a ≤ b := le_of_lt hw.1
    obtain ⟨x, hx, hS1, hS2⟩ := hS (fun t => f t - y) a b hab (cont a b le_rfl le_rfl) (sub_nonpos.2 h1) (sub_nonneg.2 h2)
    exact ⟨x, root a b x le_rfl le_rfl hx hS2, 0, fun fuel _ => by simp [solveSeg, findinv, hS1, Except.map]⟩
  | const a b f =>
    have hab : a ≤ b := le_of_lt hw.1
    obtain ⟨x, hx, hS1, hS2⟩ := hS (fun t => f - y) a b hab (cont a b le_rfl le_rfl) (sub_nonpos.2 h1) (sub_nonneg.2 h2)
    exact ⟨x, root a b x le_rfl le_rfl hx hS2, 0, fun fuel _ => by simp [solveSeg, findinv, hS1, Except.map]⟩
  | dirac a m => simp [Seg.isDirac] at hw

/-- a value of the variable `x` of the code -/
def Good (μ : Measure ℝ) (y : ℝ) (x : Option Flt) : Prop := x = none ∨ ∃ e, x = some (some e) ∧ IsQuantile μ y e

theorem loop1_spec [IsProbabilityMeasure μ] (h : IsCdf μ c) {S : Finder ℝ} (hS : ExactFinder S) (hy0 : 0 ≤ y) (hy1 : y ≤ 1) :
    ∀ (c' : PF ℝ), (∀ s ∈ c', s ∈ c) → ∀ x, Good μ y x →
      ∃ x', Good μ y x' ∧ ((x ≠ none ∨ ∃ s ∈ c', Hit y s) → x' ≠ none) ∧
        ∃ N, ∀ fuel, N ≤ fuel → loop1 ⟨S, fun _ => true, fuel⟩ y c' x = .ok x'
  | [], _, x, hx => ⟨x, hx, by simp, 0, fun fuel _ => rfl⟩
  | s :: c', hc, x, hx => by
    have hc' : ∀ t ∈ c', t ∈ c := fun t ht => hc t (by simp [ht])
    by_cases hh : Hit y s
    · obtain ⟨e, he', M, hM⟩ := solveSeg_spec h hS (hc s (by simp)) hy0 hy1 hh
      obtain ⟨x', h2, h3, N, hN⟩ := loop1_spec h hS hy0 hy1 c' hc' (some (some e)) (.inr ⟨e, rfl, he'⟩)
      refine ⟨x', h2, fun _ => h3 (.inl (by simp)), max N M, fun fuel hf => ?_⟩
      rw [loop1, if_pos hh, hM fuel ((le_max_right _ _).trans hf)]
      exact hN fuel ((le_max_left _ _).trans hf)
    · obtain ⟨x', h2, h3, N, hN⟩ := loop1_spec h hS hy0 hy1 c' hc' x hx
      refine ⟨x', h2, ?_, N, fun fuel hf => by rw [loop1, if_neg hh]; exact hN fuel hf⟩
      rintro (h' | ⟨t, ht, h'⟩)
      · exact h3 (.inl h')
      · rcases List.mem_cons.1 ht with rfl | ht
        · exact absurd h' hh
        · exact h3 (.inr ⟨t, ht, h'⟩)

/-- consecutive pieces between which the level is crossed by a jump -/
def Jump (y : ℝ) : PF ℝ → Prop
  | s :: t :: c => (s.valHi ≤ y ∧ y ≤ t.valLo) ∨ Jump y (t :: c)
  | _ => False

theorem loop2_spec (h : IsCdf μ c) {brk : List EReal} : ∀ (c' : PF ℝ) (i : ℕ) (e : Ext ℝ), (∀ s ∈ c', s ∈ c) → Linked e .pinf c' →
    (∀ j s, c'[j]? = some s → brk.getD (i + j + 1) 0 = s.hi) → ∀ x, Good μ y x →
      Good μ y (loop2 brk y i c' x) ∧ ((x ≠ none ∨ Jump y c') → loop2 brk y i c' x ≠ none)
  | [], _, _, _, _, _, x, hx => ⟨hx, by simp [Jump, loop2]⟩
  | [s], _, _, _, _, _, x, hx => ⟨hx, by simp [Jump, loop2]⟩
  | s :: t :: c', i, e, hc, hl, hb, x, hx => by
    have hst : t.lo = s.hi := hl.2.1
    have hbs := hb 0 s rfl
    have hs := hc s (by simp)
    have ht := hc t (by simp)
    have ih := loop2_spec h (brk := brk) (t :: c') (i + 1) s.hi (fun u hu => hc u (by
      rcases List.mem_cons.1 hu with rfl | hu <;> simp [*])) hl.2 (fun j u hj => by
        have := hb (j + 1) u (by simpa using hj)
        rwa [show i + (j + 1) + 1 = i + 1 + j + 1 by ring] at this)
    rw [loop2]
    by_cases hj : s.valHi ≤ y ∧ y ≤ t.valLo
    · rw [if_pos hj, show i + 1 = i + 0 + 1 by ring, hbs]
      -- the common end
      obtain ⟨x0, hx0⟩ : ∃ x0, s.hi = .fin x0 := by
        have h1 := (h.wf s hs).2
        have h2 := (h.wf t ht).2
        cases s <;> cases t <;> simp_all [Seg.hi, Seg.lo, Ext.fin, Ext.ninf, Ext.pinf]
      have q : IsQuantile μ y (s.hi : EReal) := by
        have e1 := valHi_fin h hs hx0
        have e2 := valLo_fin h ht (hst.trans hx0)
        have l1 : s.lo ≤ .fin x0 := by rw [← hx0]; exact seg_lo_le_hi (h.wf s hs).1
        have l2 : .fin x0 ≤ t.hi := by rw [← hx0, ← hst]; exact seg_lo_le_hi (h.wf t ht).1
        have s1 := (h.sand s hs x0 l1 hx0.ge).1
        have s2 := (h.sand t ht x0 (hst.trans hx0).le l2).2
        rw [hx0]
        exact isQuantile_coe.2 ⟨s1.trans (e1 ▸ hj.1), hj.2.trans (e2 ▸ s2)⟩
      obtain ⟨g1, g2⟩ := ih (some (some (s.hi : EReal))) (.inr ⟨_, rfl, q⟩)
      exact ⟨g1, fun _ => g2 (.inl (by simp))⟩
    · rw [if_neg hj]
      obtain ⟨g1, g2⟩ := ih x hx
      refine ⟨g1, ?_⟩
      rintro (h' | h' | h')
      · exact g2 (.inl h')
      · exact absurd h' hj
      · exact g2 (.inr h')

theorem found : ∀ (c' : PF ℝ) (s : Seg ℝ), (∀ t, (s :: c').getLast? = some t → y ≤ t.valHi) → s.valLo ≤ y →
    (∃ t ∈ s :: c', Hit y t) ∨ Jump y (s :: c')
  | [], s, h1, h2 => .inl ⟨s, by simp, .inl ⟨h2, h1 s rfl⟩⟩
  | t :: c', s, h1, h2 => by
    rcases le_or_gt y s.valHi with h | h
    · exact .inl ⟨s, by simp, .inl ⟨h2, h⟩⟩
    rcases le_or_gt y t.valLo with h' | h'
    · exact .inr (.inl ⟨h.le, h'⟩)
    · rcases found c' t (fun u hu => h1 u (by rw [List.getLast?_cons_of_ne_nil (by simp)]; exact hu)) h'.le with ⟨u, hu, hh⟩ | hh
      · exact .inl ⟨u, by simp [List.mem_cons.1 hu], hh⟩
      · exact .inr (.inr hh)

theorem linked_breaks : ∀ {c : PF ℝ} {e : Ext ℝ}, (∀ s ∈ c, s.WF ∧ s.isDirac = false) → Linked e .pinf c →
    (e :: c.map Seg.hi).Pairwise (· < ·)
  | [], e, _, _ => by simp
  | s :: c, e, hw, hl => by
    have ih := linked_breaks (fun t ht => hw t (by simp [ht])) hl.2
    have hlt : e < s.hi := by
      rw [← hl.1]
      have := hw s (by simp)
      cases s with
      | pinf a f => exact WithBot.coe_lt_coe.2 (WithTop.coe_lt_top a)
      | minf b f => exact WithBot.bot_lt_coe _
      | fin p a b f => exact Ext.fin_lt_fin.2 this.1
      | const a b f => exact Ext.fin_lt_fin.2 this.1
      | dirac a m => simp [Seg.isDirac] at this
    refine List.pairwise_cons.2 ⟨fun x hx => ?_, ih⟩
    rcases List.mem_cons.1 hx with rfl | hx
    · exact hlt
    · exact hlt.trans ((List.pairwise_cons.1 ih).1 x hx)

theorem linked_mem_lo : ∀ {c : PF ℝ} {e : Ext ℝ}, Linked e .pinf c → ∀ s ∈ c, s.lo ∈ e :: c.map Seg.hi
  | s :: c, e, hl, t, ht => by
    rcases List.mem_cons.1 ht with rfl | ht
    · simp [hl.1]
    · have := linked_mem_lo hl.2 t ht
      exact List.mem_cons_of_mem _ this

theorem getBreaks_cdf (h : IsCdf μ c) : PF.getBreaks c = .ninf :: c.map Seg.hi := by
  have h1 := linked_breaks h.wf h.linked
  have h2 : (PF.getBreaks c).Pairwise (· < ·) := by
    unfold PF.getBreaks
    split
    · simp
    · exact npUnique_sorted _
  refine List.Perm.eq_of_pairwise (le := (· < ·)) (fun a b _ _ h1 h2 => absurd h1 (lt_asymm h2)) h2 h1 ?_
  refine (List.perm_ext_iff_of_nodup (h2.imp ne_of_lt) (h1.imp ne_of_lt)).2 fun x => ?_
  rw [mem_getBreaks]
  constructor
  · rintro ⟨s, hs, rfl | rfl⟩
    · exact linked_mem_lo h.linked s hs
    · exact List.mem_cons_of_mem _ (List.mem_map.2 ⟨s, hs, rfl⟩)
  · intro hx
    rcases List.mem_cons.1 hx with rfl | hx
    · obtain ⟨s, c', rfl⟩ := List.exists_cons_of_ne_nil h.ne
      exact ⟨s, by simp, .inl h.linked.1.symm⟩
    · obtain ⟨s, hs, rfl⟩ := List.mem_map.1 hx
      exact ⟨s, hs, .inr rfl⟩

theorem linked_last : ∀ {c : PF ℝ} {e : Ext ℝ} {s : Seg ℝ}, Linked e .pinf c → c.getLast? = some s → s.hi = .pinf
  | [s], e, t, h, ht => by
    obtain rfl : s = t := by simpa using ht
    exact h.2
  | s :: t :: c, e, u, h, hu => linked_last h.2 (by rwa [List.getLast?_cons_of_ne_nil (by simp)] at hu)

theorem inverseScalar_spec [IsProbabilityMeasure μ] (h : IsCdf μ c) {S : Finder ℝ} (hS : ExactFinder S) (hy0 : 0 ≤ y) (hy1 : y ≤ 1) :
    ∃ x, IsQuantile μ y x ∧ ∃ N, ∀ fuel, N ≤ fuel → inverseScalar ⟨S, fun _ => true, fuel⟩ c y = .ok (some x) := by
  obtain ⟨x1, h2, h3, N, hN⟩ := loop1_spec h hS hy0 hy1 c (fun s hs => hs) none (.inl rfl)
  obtain ⟨g1, g2⟩ := loop2_spec h (brk := PF.getBreaks c) c 0 .ninf (fun s hs => hs) h.linked (by
    intro j s hj
    rw [getBreaks_cdf h]
    rw [zero_add]
    show (c.map Seg.hi).getD j (0 : EReal) = s.hi
    have : (c.map Seg.hi)[j]? = some s.hi := by simp [hj]
    exact (List.getD_eq_getElem?_getD (l := (c.map Seg.hi : List (Ext ℝ))) (i := j) (a := (0 : EReal))).trans
      (congrArg (fun o => Option.getD o (0 : EReal)) this)) x1 h2
  have hne : loop2 (PF.getBreaks c) y 0 c x1 ≠ none := by
    apply g2
    obtain ⟨s, c', rfl⟩ := List.exists_cons_of_ne_nil h.ne
    have hlo : s.valLo ≤ y := by
      have := h.linked.1
      have hw := (h.wf s (by simp)).2
      cases s with
      | minf b f => rw [valLo_minf h (by simp)]; exact hy0
      | _ => simp [Seg.lo, Ext.fin, Ext.ninf] at this
    have hhi : ∀ t, (s :: c').getLast? = some t → y ≤ t.valHi := by
      intro t ht
      have hp := linked_last h.linked ht
      have htm := List.mem_of_getLast? ht
      cases t with
      | pinf a f => rw [valHi_pinf h htm]; exact hy1
      | _ => simp [Seg.hi, Ext.fin, Ext.pinf] at hp
    rcases found c' s hhi hlo with h' | h'
    · exact .inl (h3 (.inr h'))
    · exact .inr h'
  rcases g1 with g1 | ⟨e, g1, g3⟩
  · exact absurd g1 hne
  · refine ⟨e, g3, N, fun fuel hf => ?_⟩
    rw [inverseScalar, hN fuel hf]
    show fixCdf c y (loop2 (PF.getBreaks c) y 0 c x1) = _
    rw [g1]; rfl

end Quantile
end Pacal
