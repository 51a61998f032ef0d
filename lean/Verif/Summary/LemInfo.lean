import Verif.Summary.Spec
import Verif.Law.PropsLaw
import Mathlib.Analysis.SpecialFunctions.Log.NegMulLog

/-! The integral of a combined piecewise function as the integral of its values plus its point masses; used for C75. -/

namespace Pacal.Summary
open MeasureTheory Set Transform

variable {eps : ℝ} {q : Quad} {qp : QPar}

theorem integrate_list (hq : ExactQ q qp) : ∀ {r : PF ℝ}, (∀ s ∈ r, s.WF) → (∀ s ∈ r, Integrable (fun x => s.val x) volume) →
    ∀ {A : Finset ℝ}, (∀ a m, Seg.dirac a m ∈ r → a ∈ A) →
    (r.map fun s => s.integrate q qp ⊥ ⊤).sum = (∫ x, r.val x) + ∑ x ∈ A, r.massAt x ∧ Integrable (fun x => r.val x) volume
  | [], _, _, A, _ => by simp [PF.val, PF.massAt]
  | s :: r, hw, hi, A, hA => by
    obtain ⟨h1, h2⟩ := integrate_list hq (r := r) (fun t ht => hw t (List.mem_cons_of_mem _ ht))
      (fun t ht => hi t (List.mem_cons_of_mem _ ht)) (A := A) fun a m h => hA a m (List.mem_cons_of_mem _ h)
    have hs := hi s (by simp)
    refine ⟨?_, by simp only [PF.val_cons]; exact hs.add h2⟩
    rw [List.map_cons, List.sum_cons, h1]
    simp only [PF.val_cons, PF.massAt_cons]
    rw [integral_add hs h2, Finset.sum_add_distrib]
    have key : s.integrate q qp ⊥ ⊤ = (∫ x, s.val x) + ∑ x ∈ A, s.massAt x := by
      have hab : endsLe (⊥ : WithBot ℝ) (⊤ : WithTop ℝ) := trivial
      cases s with
      | fin pole a b f => rw [fin_integrate hq hs hab, ivl_bot_top]; simp [Seg.massAt]
      | const a b c =>
        rw [const_integrate q qp hab (.inl (le_of_lt (hw (.const a b c) (by simp)))), ivl_bot_top]; simp [Seg.massAt]
      | minf b f => rw [minf_integrate hq, ivl_bot_top]; simp [Seg.massAt]
      | pinf a f => rw [pinf_integrate_ivl hq, ivl_bot_top]; simp [Seg.massAt]
      | dirac a m =>
        rw [dirac_integrate, ivl_bot_top, univ_union, indicator_univ]
        simp only [dirac_val, integral_zero, zero_add]
        rw [Finset.sum_eq_single_of_mem a (hA a m (by simp))]
        · simp [Seg.massAt]
        · intro x _ hx; simp [Seg.massAt, Ne.symm hx]
    rw [key]; ring

/-- the integral over everything: the values are integrated, the point masses are added -/
theorem integrate_total (hq : ExactQ q qp) {r : PF ℝ} (hw : PF.WF eps r) (hi : Integrable (fun x => r.val x) volume)
    {A : Finset ℝ} (hA : ∀ a m, Seg.dirac a m ∈ r → a ∈ A) :
    r.integrate q qp ⊥ ⊤ = (∫ x, r.val x) + ∑ x ∈ A, r.massAt x := by
  rw [PF.integrate, foldl_add_sum, zero_add]
  refine (integrate_list hq hw.seg (fun s hs => ?_) hA).1
  cases hd : s.isDirac
  · have : (fun x => s.val x) = {x : ℝ | s.lo ≤ .fin x ∧ .fin x < s.hi}.indicator fun x => r.val x :=
      funext fun x => piece_val hw hs hd x
    rw [this]
    exact hi.indicator (measurableSet_piece s)
  · cases s <;> simp [Seg.isDirac] at hd
    simp [dirac_val]

/-- the point `x` lies on a piece -/
def Covered (l : PF ℝ) (x : ℝ) : Prop := ∃ s ∈ l, s.isDirac = false ∧ s.lo ≤ .fin x ∧ .fin x < s.hi

theorem val_of_not {l : PF ℝ} {x : ℝ} (h : ¬ Covered l x) : l.val x = 0 :=
  val_eq_zero fun s hs hd hx => h ⟨s, hs, hd, hx⟩

theorem mapFn_ok (he : 0 ≤ eps) (h : ℝ → ℝ) {l : PF ℝ} (hw : PF.WF eps l) (hp : PosAtoms l) :
    ∃ r, mapFn eps h l = some r ∧ PF.WF eps r ∧ (∀ x, Covered l x → r.val x = h (l.val x)) ∧
      (∀ x, ¬ Covered l x → r.val x = 0) ∧ ∀ x n, .dirac x n ∈ r ↔ ∃ m, .dirac x m ∈ l ∧ n = h m := by
  obtain ⟨r, h1, h2, h3, h4, h5, h6⟩ := C06_roperation he (fun x _ => h x) l hw 0
  have hbad : ¬ ∃ s ∈ l, badAtom s := by
    rintro ⟨s, hs, hb⟩
    cases s <;> first | exact hb | exact absurd (hp _ _ hs) (not_lt.2 hb)
  have h1' : mapFn eps h l = some r := by
    rw [← h1, mapFn, if_neg hbad, PF.roperation]
    congr 2
    funext s
    cases s <;> rfl
  refine ⟨r, h1', h2, h3, h4, fun x n => ?_⟩
  have e : mapFn eps h l = some (l.map fun s =>
    match s with
    | .minf b f => .minf b fun x => h (f x)
    | .pinf a f => .pinf a fun x => h (f x)
    | .fin pole a b f => .fin pole a b fun x => h (f x)
    | .const a b c => .fin .none a b fun _ => h c
    | .dirac a m => .dirac a (h m)) := by
      rw [mapFn, if_neg hbad]
      refine addAll_self he ⟨?_, ?_⟩
      · intro s hs
        obtain ⟨t, ht, rfl⟩ := List.mem_map.1 hs
        have := hw.seg t ht
        cases t <;> exact this
      · rw [List.pairwise_map]
        refine hw.sorted.imp ?_
        intro s t h
        refine ⟨by cases s <;> cases t <;> exact h.1, ?_⟩
        intro a m a' m' e e'
        cases s <;> cases t <;> simp at e e'
        exact h.2 _ _ _ _ (by rw [e.1]) (by rw [e'.1])
  rw [h1'] at e
  cases e
  rw [List.mem_map]
  constructor
  · rintro ⟨t, ht, e⟩
    cases t <;> simp at e
    obtain ⟨rfl, rfl⟩ := e
    exact ⟨_, ht, rfl⟩
  · rintro ⟨m, hm, rfl⟩
    exact ⟨_, hm, rfl⟩

theorem atomsApart_self {f g : PF ℝ} (hw : PF.WF eps f) (h : ∀ x n, Seg.dirac x n ∈ g → ∃ m, Seg.dirac x m ∈ f) :
    PF.AtomsApart eps f g := by
  intro a m a' m' ha ha'
  obtain ⟨n, hn⟩ := h a' m' ha'
  by_cases e : a = a'
  · exact .inl e
  · right
    obtain ⟨i, hi, ei⟩ := List.getElem_of_mem ha
    obtain ⟨j, hj, ej⟩ := List.getElem_of_mem hn
    rcases lt_trichotomy i j with h | rfl | h
    · exact (List.pairwise_iff_getElem.1 hw.sorted i j hi hj h).2 _ _ _ _ ei ej
    · rw [ei] at ej; cases ej; exact absurd rfl e
    · have := (List.pairwise_iff_getElem.1 hw.sorted j i hj hi h).2 _ _ _ _ ej ei
      rwa [abs_sub_comm]

/-- a product or difference of functions with atoms at the same points -/
theorem operation_same (he : 0 ≤ eps) {op : ℝ → ℝ → ℝ} (h0 : op 0 0 = 0) {f g : PF ℝ} (hf : PF.WF eps f) (hg : PF.WF eps g)
    (h : ∀ x, (∃ m, Seg.dirac x m ∈ f) ↔ ∃ m, Seg.dirac x m ∈ g) :
    ∃ r, PF.operation eps op f g = some r ∧ PF.WF eps r ∧ (∀ x, r.val x = op (f.val x) (g.val x)) ∧
      (∀ x, r.massAt x = op (f.massAt x) (g.massAt x)) ∧ ∀ x, (∃ m, Seg.dirac x m ∈ r) ↔ ∃ m, Seg.dirac x m ∈ f := by
  obtain ⟨r, h1, h2, h3, h4⟩ := operation_ok he (op := op) h0 hf hg (atomsApart_self hf fun x n hn => (h x).2 ⟨n, hn⟩)
  refine ⟨r, h1, h2, h3, fun x => ?_, fun x => ?_⟩
  · rw [massAt_eq_getDirac he h2, massAt_eq_getDirac he hf, massAt_eq_getDirac he hg, h4 x]
    by_cases hx : ∃ m, Seg.dirac x m ∈ f
    · obtain ⟨m', hm'⟩ := (h x).1 hx
      obtain ⟨m, hm⟩ := hx
      rw [(getDirac_iff he hf).2 hm, (getDirac_iff he hg).2 hm']; rfl
    · have hx' := mt (h x).2 hx
      push Not at hx hx'
      rw [getDirac_none.2 hx, getDirac_none.2 hx']; simp [combMass, h0]
  · by_cases hx : ∃ m, Seg.dirac x m ∈ f
    · obtain ⟨m', hm'⟩ := (h x).1 hx
      refine iff_of_true ?_ hx
      obtain ⟨m, hm⟩ := hx
      have := h4 x
      rw [(getDirac_iff he hf).2 hm, (getDirac_iff he hg).2 hm'] at this
      exact ⟨_, (getDirac_iff he h2).1 this⟩
    · refine iff_of_false ?_ hx
      have hx' := mt (h x).2 hx
      push Not at hx hx'
      have := h4 x
      rw [getDirac_none.2 hx, getDirac_none.2 hx'] at this
      rintro ⟨m, hm⟩
      rw [(getDirac_iff he h2).2 hm] at this
      cases this

theorem mul_safeLog1 {big x : ℝ} (h : 0 ≤ x) : x * safeLog1 big x = Real.negMulLog x := by
  rw [safeLog1, Real.negMulLog]
  split_ifs with h1 h2
  · simp [h1]
  · exact absurd h (not_le.2 h2)
  · ring

theorem entropy_eq {P : DPar} (he : 0 ≤ P.eps) (hq : ExactQ P.q P.qp) {l : PF ℝ} (hw : PF.WF P.eps l) (hd : PF.Dens l) (hp : PosAtoms l)
    (hi : Integrable (fun x => Real.negMulLog (l.val x)) volume) {A : Finset ℝ} (hA : ∀ a m, Seg.dirac a m ∈ l → a ∈ A) :
    entropy P l = some ((∫ x, Real.negMulLog (l.val x)) + ∑ x ∈ A, Real.negMulLog (l.massAt x)) := by
  obtain ⟨g, e1, w1, v1, v2, m1⟩ := mapFn_ok he (safeLog1 P.big) hw hp
  obtain ⟨r, e2, w2, v3, m2, a2⟩ := operation_same he (op := fun x y => x * y) (by simp) hw w1 fun x =>
    ⟨fun ⟨m, hm⟩ => ⟨_, (m1 x _).2 ⟨m, hm, rfl⟩⟩, fun ⟨n, hn⟩ => (m1 x n).1 hn |>.imp fun _ h => h.1⟩
  have hv : (fun x => r.val x) =ᵐ[volume] fun x => Real.negMulLog (l.val x) := by
    filter_upwards [PF.val_nonneg hd] with x hx
    rw [v3]
    by_cases hc : Covered l x
    · rw [v1 x hc, mul_safeLog1 hx]
    · rw [val_of_not hc]; simp
  rw [entropy, e1, Option.bind_some, e2, Option.map_some, integrate_total hq w2 (hi.congr hv.symm)
    (fun a m h => by obtain ⟨n, hn⟩ := (a2 a).1 ⟨m, h⟩; exact hA a n hn), integral_congr_ae hv]
  congr 2
  refine Finset.sum_congr rfl fun x _ => ?_
  rw [m2]
  by_cases hx : ∃ m, Seg.dirac x m ∈ l
  · obtain ⟨m, hm⟩ := hx
    rw [PF.mem_massAt he hw hm, PF.mem_massAt he w1 ((m1 x _).2 ⟨m, hm, rfl⟩), mul_safeLog1]
    exact hd _ hm
  · push Not at hx
    rw [massAt_zero hx]; simp

theorem l2_eq {P : DPar} (he : 0 ≤ P.eps) (hq : ExactQ P.q P.qp) {f g : PF ℝ} (hf : PF.WF P.eps f) (hg : PF.WF P.eps g)
    (ha : PF.AtomsApart P.eps f g) (hi : Integrable (fun x => (f.val x - g.val x) ^ 2) volume) {A : Finset ℝ}
    (hA : ∀ a m, Seg.dirac a m ∈ f ∨ Seg.dirac a m ∈ g → a ∈ A) :
    l2Distance P f g = some (Real.sqrt ((∫ x, (f.val x - g.val x) ^ 2) + ∑ x ∈ A, (f.massAt x - g.massAt x) ^ 2)) := by
  obtain ⟨d, e1, w1, v1, m1⟩ := operation_ok he (op := fun x y => x - y) (by simp) hf hg ha
  obtain ⟨r, e2, w2, v2, m2, a2⟩ := operation_same he (op := fun x y => x * y) (by simp) w1 w1 fun _ => Iff.rfl
  have hv : (fun x => r.val x) = fun x => (f.val x - g.val x) ^ 2 := by
    funext x; rw [v2, v1]; ring
  rw [l2Distance, e1, Option.bind_some, e2, Option.map_some, integrate_total hq w2 (hv ▸ hi) (A := A), Real.sqrt_eq_rpow, hv]
  · congr 3
    · refine Finset.sum_congr rfl fun x _ => ?_
      rw [m2, massAt_eq_getDirac he w1, massAt_eq_getDirac he hf, massAt_eq_getDirac he hg, m1]
      cases PF.getDirac x f <;> cases PF.getDirac x g <;> simp [combMass] <;> ring
    · norm_num
  · intro a m h
    obtain ⟨n, hn⟩ := (a2 a).1 ⟨m, h⟩
    have := m1 a
    rw [(getDirac_iff he w1).2 hn] at this
    by_contra hna
    rw [getDirac_none.2 fun m hm => hna (hA a m (.inl hm)), getDirac_none.2 fun m hm => hna (hA a m (.inr hm))] at this
    cases this

theorem safeLog_pos {big x : ℝ} (h : 0 < x) : safeLog big x = Real.log x := by
  rw [safeLog, if_neg h.ne', if_neg h.le.not_gt]

theorem kl_eq {P : DPar} (he : 0 ≤ P.eps) (hq : ExactQ P.q P.qp) {f g : PF ℝ} (hf : PF.WF P.eps f) (hg : PF.WF P.eps g)
    (df : PF.Dens f) (dg : PF.Dens g) (pf : PosAtoms f) (pg : PosAtoms g)
    (ha : ∀ x, (∃ m, Seg.dirac x m ∈ f) ↔ ∃ m, Seg.dirac x m ∈ g)
    (hac : ∀ᵐ x, g.val x = 0 → f.val x = 0)
    (hi : Integrable (fun x => f.val x * Real.log (f.val x / g.val x)) volume) {A : Finset ℝ}
    (hA : ∀ a m, Seg.dirac a m ∈ f → a ∈ A) :
    klDistance P f g = some ((∫ x, f.val x * Real.log (f.val x / g.val x)) +
      ∑ x ∈ A, f.massAt x * Real.log (f.massAt x / g.massAt x)) := by
  obtain ⟨lf, e1, w1, v1, v1', m1⟩ := mapFn_ok he (safeLog P.big) hf pf
  obtain ⟨lg, e2, w2, v2, v2', m2⟩ := mapFn_ok he (safeLog P.big) hg pg
  have i1 : ∀ x, (∃ m, Seg.dirac x m ∈ lf) ↔ ∃ m, Seg.dirac x m ∈ f := fun x =>
    ⟨fun ⟨n, hn⟩ => (m1 x n).1 hn |>.imp fun _ h => h.1, fun ⟨m, hm⟩ => ⟨_, (m1 x _).2 ⟨m, hm, rfl⟩⟩⟩
  have i2 : ∀ x, (∃ m, Seg.dirac x m ∈ lg) ↔ ∃ m, Seg.dirac x m ∈ g := fun x =>
    ⟨fun ⟨n, hn⟩ => (m2 x n).1 hn |>.imp fun _ h => h.1, fun ⟨m, hm⟩ => ⟨_, (m2 x _).2 ⟨m, hm, rfl⟩⟩⟩
  obtain ⟨d, e3, w3, v3, m3, a3⟩ := operation_same he (op := fun x y => x - y) (by simp) w1 w2 fun x =>
    (i1 x).trans ((ha x).trans (i2 x).symm)
  obtain ⟨r, e4, w4, v4, m4, a4⟩ := operation_same he (op := fun x y => x * y) (by simp) hf w3 fun x =>
    ((a3 x).trans (i1 x)).symm
  have hv : (fun x => r.val x) =ᵐ[volume] fun x => f.val x * Real.log (f.val x / g.val x) := by
    filter_upwards [PF.val_nonneg df, PF.val_nonneg dg, hac] with x hx hy hxy
    rw [v4]
    rcases hx.eq_or_lt with h | h
    · rw [← h]; simp
    · have hg0 : g.val x ≠ 0 := fun h0 => h.ne' (hxy h0)
      have hgp : 0 < g.val x := lt_of_le_of_ne hy hg0.symm
      have cf : Covered f x := by by_contra hc; exact h.ne' (val_of_not hc)
      have cg : Covered g x := by by_contra hc; exact hg0 (val_of_not hc)
      rw [v3, v1 x cf, v2 x cg, safeLog_pos h, safeLog_pos hgp, Real.log_div h.ne' hg0]
  rw [klDistance, e1, Option.bind_some, e2, Option.bind_some, e3, Option.bind_some, e4, Option.map_some,
    integrate_total hq w4 (hi.congr hv.symm)
    (fun a m h => by obtain ⟨n, hn⟩ := (a4 a).1 ⟨m, h⟩; exact hA a n hn), integral_congr_ae hv]
  congr 2
  refine Finset.sum_congr rfl fun x _ => ?_
  rw [m4]
  by_cases hx : ∃ m, Seg.dirac x m ∈ f
  · obtain ⟨m', hm'⟩ := (ha x).1 hx
    obtain ⟨m, hm⟩ := hx
    rw [m3, PF.mem_massAt he hf hm, PF.mem_massAt he hg hm', PF.mem_massAt he w1 ((m1 x _).2 ⟨m, hm, rfl⟩),
      PF.mem_massAt he w2 ((m2 x _).2 ⟨m', hm', rfl⟩), safeLog_pos (pf _ _ hm), safeLog_pos (pg _ _ hm'),
      Real.log_div (pf _ _ hm).ne' (pg _ _ hm').ne']
  · push Not at hx
    rw [massAt_zero hx]; simp

end Pacal.Summary
