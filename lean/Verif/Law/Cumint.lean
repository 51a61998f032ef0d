import Verif.Law.Integrals
import Verif.Segments.Split

/-! The shape of the result of `cumint`, and its value at a point. -/

namespace Pacal
open MeasureTheory Set Transform

/-- the cumulated pieces, `y` being the mass to the left -/
noncomputable def cumSegs (q : Quad) (p : QPar) : ℝ → PF ℝ → PF ℝ
  | _, [] => []
  | y, .dirac _ m :: l => cumSegs q p (y + m) l
  | y, s :: l => s.cumint q p (if s.isPInf then y + s.law.real univ else y) :: cumSegs q p (y + s.law.real univ) l

theorem cumSegs_of_not (q : Quad) (p : QPar) (y : ℝ) {s : Seg ℝ} (h : s.isDirac = false) (l : PF ℝ) :
    cumSegs q p y (s :: l) =
      s.cumint q p (if s.isPInf then y + s.law.real univ else y) :: cumSegs q p (y + s.law.real univ) l := by
  cases s <;> first | rfl | simp [Seg.isDirac] at h

theorem cumint_lo (q : Quad) (p : QPar) (s : Seg ℝ) (y : ℝ) : (s.cumint q p y).lo = s.lo := by cases s <;> rfl
theorem cumint_hi (q : Quad) (p : QPar) (s : Seg ℝ) (y : ℝ) : (s.cumint q p y).hi = s.hi := by cases s <;> rfl
theorem cumint_isDirac (q : Quad) (p : QPar) (s : Seg ℝ) (y : ℝ) : (s.cumint q p y).isDirac = false := by
  cases s <;> rfl
theorem cumint_wf (q : Quad) (p : QPar) {s : Seg ℝ} (hs : s.isDirac = false) (hw : s.WF) (y : ℝ) :
    (s.cumint q p y).WF := by
  cases s <;> first | exact hw | trivial

/-- a piece entirely right of `x` has no mass up to `x` -/
theorem law_Iic_right {s : Seg ℝ} (hd : s.Dens) {x : ℝ} (h : .fin x < s.lo) : s.law.real (Iic x) = 0 := by
  cases hs : s.isDirac
  · rw [Seg.law_real hs hd measurableSet_Iic]
    refine setIntegral_eq_zero_of_forall_eq_zero fun t ht => ?_
    rw [Seg.val, if_neg]
    rintro ⟨-, h1, -⟩
    have : Ext.fin t ≤ Ext.fin x := by simpa [Ext.fin] using ht
    exact absurd ((h1.trans this).trans_lt h) (lt_irrefl _)
  · cases s <;> simp [Seg.isDirac] at hs
    rename_i a m
    rw [Seg.law_real_dirac hd measurableSet_Iic]
    have : x < a := by simpa [Seg.lo, Ext.fin] using h
    simp [this]

/-- a piece entirely left of `x` has all its mass up to `x` -/
theorem law_Iic_left {s : Seg ℝ} (hd : s.Dens) {x : ℝ} (h : s.hi ≤ .fin x) : s.law.real (Iic x) = s.law.real univ := by
  cases hs : s.isDirac
  · rw [Seg.law_real hs hd measurableSet_Iic, Seg.law_real hs hd MeasurableSet.univ, setIntegral_univ]
    refine setIntegral_eq_integral_of_forall_compl_eq_zero fun t ht => ?_
    rw [Seg.val, if_neg]
    rintro ⟨-, -, h1⟩
    have : Ext.fin x < Ext.fin t := by simpa [Ext.fin] using ht
    exact absurd ((h1.trans_le h).trans this) (lt_irrefl _)
  · cases s <;> simp [Seg.isDirac] at hs
    rename_i a m
    rw [Seg.law_real_dirac hd measurableSet_Iic, Seg.law_real_dirac hd MeasurableSet.univ]
    have : a ≤ x := by simpa [Seg.hi, Ext.fin] using h
    simp [this]

theorem PF.law_Iic_right : ∀ {l : PF ℝ}, PF.Dens l → ∀ {x : ℝ}, (∀ s ∈ l, .fin x < s.lo) → (PF.law l).real (Iic x) = 0
  | [], _, _, _ => by simp
  | s :: l, hd, x, h => by
    rw [PF.law_real_cons hd, Pacal.law_Iic_right (PF.dens_cons.1 hd).1 (h s (by simp)),
      PF.law_Iic_right (PF.dens_cons.1 hd).2 fun t ht => h t (by simp [ht]), add_zero]

theorem not_pinf_hi {s : Seg ℝ} (h : s.isPInf = false) : ∃ b, s.hi = .fin b := by
  cases s <;> first | exact ⟨_, rfl⟩ | simp [Seg.isPInf] at h

theorem endVal_cumint {q : Quad} {p : QPar} (h : ExactQ q p) {s : Seg ℝ} (hw : s.WF) (hd : s.Dens) (y : ℝ)
    {b : ℝ} (hb : s.hi = .fin b) : PF.endVal (s.cumint q p y) = some (b, y + s.law.real univ) := by
  have key : ∀ (_ : s.isDirac = false) (_ : s.isPInf = false) (_ : s.constOk b),
      (s.cumint q p y).fn b = y + s.law.real univ := by
    intro h1 h2 h3
    rw [cumint_fn h h1 hw hd h3, law_Iic_left hd hb.le, h2]; simp
  cases s with
  | fin pole a b' f =>
    obtain rfl : b' = b := by simpa [Seg.hi, Ext.fin] using hb
    exact congrArg (fun v => some (b', v)) (key rfl rfl trivial)
  | const a b' c =>
    obtain rfl : b' = b := by simpa [Seg.hi, Ext.fin] using hb
    exact congrArg (fun v => some (b', v)) (key rfl rfl (.inl (le_of_lt hw)))
  | minf b' f =>
    obtain rfl : b' = b := by simpa [Seg.hi, Ext.fin] using hb
    exact congrArg (fun v => some (b', v)) (key rfl rfl trivial)
  | pinf a f => simp [Seg.hi, Ext.fin, Ext.pinf] at hb
  | dirac a m =>
    obtain rfl : a = b := by simpa [Seg.hi, Ext.fin] using hb
    have e := dirac_cumint_fn q p a m y
    rw [Seg.law_real_dirac hd MeasurableSet.univ, indicator_univ]
    exact congrArg (fun v => some (a, v)) e

theorem endVal_pinf (q : Quad) (p : QPar) {s : Seg ℝ} (h : s.isPInf = true) (y : ℝ) :
    PF.endVal (s.cumint q p y) = none := by
  cases s <;> first | rfl | simp [Seg.isPInf] at h

/-- one step of the loop on a piece which is not an atom -/
theorem cumintLoop_cons (eps : ℝ) {q : Quad} {p : QPar} (h : ExactQ q p) {s : Seg ℝ} (hs : s.isDirac = false)
    (hd : s.Dens) (l F : PF ℝ) (y : ℝ) (last : Option (Seg ℝ)) :
    PF.cumintLoop eps q p (s :: l) (F, y, last) =
      (PF.addSegment eps F (s.cumint q p (if s.isPInf then y + s.law.real univ else y))).bind fun F =>
        PF.cumintLoop eps q p l (F, (match PF.endVal (s.cumint q p (if s.isPInf then y + s.law.real univ else y)) with
          | some (_, v) => v
          | none => (if s.isPInf then y + s.law.real univ else y)),
          some (s.cumint q p (if s.isPInf then y + s.law.real univ else y))) := by
  cases s with
  | dirac a m => simp [Seg.isDirac] at hs
  | pinf a f =>
    have e := pinf_integrate h hd
    simp only [PF.cumintLoop, Seg.isPInf, if_true, e]
    rfl
  | _ => rfl

theorem cumintLoop_spec {eps : ℝ} (he : 0 ≤ eps) {q : Quad} {p : QPar} (h : ExactQ q p) :
    ∀ {l : PF ℝ} {F : PF ℝ} {y : ℝ} {last : Option (Seg ℝ)}, PF.WF eps l → PF.Dens l →
      (∀ t ∈ F, t.WF ∧ t.isDirac = false ∧ ∀ s ∈ l, t.hi ≤ s.lo) →
      ∃ g, PF.cumintLoop eps q p l (F, y, last) = some (F ++ cumSegs q p y l, y + (PF.law l).real univ, g) ∧
        (l = [] → g = last) ∧ ∀ s, l.getLast? = some s → ∃ g', g = some g' ∧
          (s.isPInf = true → PF.endVal g' = none) ∧
          ∀ b, s.hi = .fin b → PF.endVal g' = some (b, y + (PF.law l).real univ)
  | [], F, y, last, _, _, _ => ⟨last, by simp [PF.cumintLoop, cumSegs], fun _ => rfl, by simp⟩
  | s :: l, F, y, last, hw, hd, hF => by
    obtain ⟨hds, hdl⟩ := PF.dens_cons.1 hd
    have hws := hw.seg s (by simp)
    have hwl : PF.WF eps l := ⟨fun t ht => hw.seg t (by simp [ht]), (List.pairwise_cons.1 hw.sorted).2⟩
    have hsl : ∀ t ∈ l, s.LeftOf eps t := (List.pairwise_cons.1 hw.sorted).1
    rw [PF.law_real_cons hd]
    cases hs : s.isDirac
    · set y' := if s.isPInf then y + s.law.real univ else y with hy'
      have hadd : PF.addSegment eps F (s.cumint q p y') = some (F ++ [s.cumint q p y']) := by
        have := addSegment_split he (l₁ := F) (l₂ := []) (s := s.cumint q p y')
          (by simpa using fun t ht => (hF t ht).1) (cumint_wf q p hs hws y')
          (fun t ht => leftOf_of_nodirac (by rw [cumint_lo]; exact (hF t ht).2.2 s (by simp)) (hF t ht).2.1)
          (by simp)
        simpa using this
      rw [cumintLoop_cons eps h hs hds, ← hy', hadd]
      have hv : (match PF.endVal (s.cumint q p y') with
          | some (_, v) => v
          | none => y') = y + s.law.real univ := by
        cases hp : s.isPInf
        · obtain ⟨b, hb⟩ := not_pinf_hi hp
          rw [endVal_cumint h hws hds y' hb, hy', hp]; simp
        · rw [endVal_pinf q p hp, hy', hp]; simp
      simp only [Option.bind_some, hv]
      obtain ⟨g, hg, hnil, hlast⟩ := cumintLoop_spec he h (l := l) (F := F ++ [s.cumint q p y'])
        (y := y + s.law.real univ) (last := some (s.cumint q p y')) hwl hdl (by
          intro t ht
          rcases List.mem_append.1 ht with ht | ht
          · exact ⟨(hF t ht).1, (hF t ht).2.1, fun u hu => (hF t ht).2.2 u (by simp [hu])⟩
          · rw [List.mem_singleton.1 ht]
            exact ⟨cumint_wf q p hs hws y', cumint_isDirac q p s y', fun u hu => by
              rw [cumint_hi]; exact (hsl u hu).1⟩)
      refine ⟨g, ?_, by simp, ?_⟩
      · rw [hg, cumSegs_of_not q p y hs, ← hy']; simp [add_assoc]
      · intro u hu
        rcases eq_or_ne l [] with rfl | hne
        · obtain rfl : s = u := by simpa using hu
          refine ⟨_, hnil rfl, fun hp => endVal_pinf q p hp y', fun b hb => ?_⟩
          have hp : s.isPInf = false := by
            cases s <;> first | rfl | simp [Seg.hi, Ext.fin, Ext.pinf] at hb
          rw [endVal_cumint h hws hds y' hb, hy', hp]; simp
        · rw [List.getLast?_cons_of_ne_nil hne] at hu
          obtain ⟨g', e1, e2, e3⟩ := hlast u hu
          exact ⟨g', e1, e2, fun b hb => by rw [e3 b hb, add_assoc]⟩
    · cases s <;> simp [Seg.isDirac] at hs
      rename_i a m
      have hm : (Seg.dirac a m).law.real univ = m := by
        rw [Seg.law_real_dirac hds MeasurableSet.univ, indicator_univ]
      have ev := endVal_cumint h hws hds y (b := a) rfl
      have hstep : PF.cumintLoop eps q p (.dirac a m :: l) (F, y, last) =
          PF.cumintLoop eps q p l (F, (match PF.endVal ((Seg.dirac a m).cumint q p y) with
            | some (_, v) => v
            | none => y + m), some ((Seg.dirac a m).cumint q p y)) := rfl
      rw [hstep, ev]
      simp only [hm]
      obtain ⟨g, hg, hnil, hlast⟩ := cumintLoop_spec he h (l := l) (F := F) (y := y + m)
        (last := some ((Seg.dirac a m).cumint q p y)) hwl hdl
        (fun t ht => ⟨(hF t ht).1, (hF t ht).2.1, fun u hu => (hF t ht).2.2 u (by simp [hu])⟩)
      refine ⟨g, by rw [hg]; simp [cumSegs, add_assoc], by simp, ?_⟩
      intro u hu
      rcases eq_or_ne l [] with rfl | hne
      · obtain rfl : Seg.dirac a m = u := by simpa using hu
        refine ⟨_, hnil rfl, by simp [Seg.isPInf], fun b hb => ?_⟩
        obtain rfl : a = b := by simpa [Seg.hi, Ext.fin] using hb
        rw [ev, hm]; simp
      · rw [List.getLast?_cons_of_ne_nil hne] at hu
        obtain ⟨g', e1, e2, e3⟩ := hlast u hu
        exact ⟨g', e1, e2, fun b hb => by rw [e3 b hb, add_assoc]⟩

/-- value of the first piece that ends right of `x` -/
noncomputable def pick (x : ℝ) : PF ℝ → Option ℝ
  | [] => none
  | s :: l => open Classical in if .fin x < s.hi then some (s.fn x) else pick x l

theorem pick_split {x v : ℝ} : ∀ {c : PF ℝ}, pick x c = some v →
    ∃ l₁ s l₂, c = l₁ ++ s :: l₂ ∧ (∀ t ∈ l₁, t.hi ≤ .fin x) ∧ .fin x < s.hi ∧ v = s.fn x
  | [], h => by simp [pick] at h
  | s :: c, h => by
    unfold pick at h
    split_ifs at h with hx
    · exact ⟨[], s, c, rfl, by simp, hx, by simpa using h.symm⟩
    · obtain ⟨l₁, t, l₂, rfl, h1, h2, h3⟩ := pick_split h
      exact ⟨s :: l₁, t, l₂, rfl, by
        intro u hu
        rcases List.mem_cons.1 hu with rfl | hu
        · exact not_lt.1 hx
        · exact h1 u hu, h2, h3⟩

/-- scalar evaluation of a function without atoms whose first piece is a left tail -/
theorem evalScalar_pick {eps : ℝ} {c : PF ℝ} (hw : PF.WF eps c) (hn : ∀ s ∈ c, s.isDirac = false)
    (hh : ∀ s, c.head? = some s → s.lo = .ninf) {x v : ℝ} (h : pick x c = some v) :
    c.evalScalar x = some v := by
  obtain ⟨l₁, s, l₂, rfl, h1, h2, rfl⟩ := pick_split h
  have hs := hn s (by simp)
  have hr : ∀ y ∈ s :: l₂, ¬ (y.hi ≤ .fin x ∧ ¬ (y.isDirac = true ∧ y.lo = .fin x)) := by
    rintro y hy ⟨hy1, -⟩
    rcases List.mem_cons.1 hy with rfl | hy
    · exact absurd hy1 (not_le.2 h2)
    · have hl := (wf_append hw).2.1
      have h3 := ((List.pairwise_cons.1 hl.sorted).1 y hy).1
      have h4 : y.lo ≤ y.hi := by
        have := hw.seg y (by simp [hy])
        cases y <;> simp_all [Seg.lo, Seg.hi, Ext.fin, Ext.ninf, Ext.pinf, Seg.WF, le_of_lt]
      exact absurd (h2.trans_le (h3.trans (h4.trans hy1))) (lt_irrefl _)
  have hf := findSegment_mid hw (fun y hy => ⟨h1 y hy, by simp [hn y (by simp [hy])]⟩) hr
  unfold PF.evalScalar
  rw [hf]
  by_cases hl : l₁ = []
  · subst hl
    have : s.lo = .ninf := hh s (by simp)
    rw [if_pos rfl, if_pos ⟨by rw [this]; exact bot_le, h2.le⟩]
    simp [hs]
  · rw [if_neg hl]
    simp [hs]

end Pacal
