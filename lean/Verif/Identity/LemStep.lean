import Verif.Identity.LemKind
import Verif.Push.PropsComp
import Verif.Push.PropsInv
import Verif.Conv.PropsSum
import Verif.Conv.PropsProd
import Verif.Conv.PropsDiv
import Verif.Conv.PropsMinMax

/-!
Lemmas for `Verif.Identity.Props`: one operation.
-/

namespace Pacal.Identity
open MeasureTheory ProbabilityTheory Standard Set

theorem isNonneg_of {l : PF ℝ} (hc : ∀ s ∈ l, s.isDirac = false) (hp : PosPF l) : isNonneg l = true := by
  rw [isNonneg, List.all_eq_true]
  intro s hs
  have h1 := hc s hs
  have h2 := hp s hs
  cases s <;> simp_all [Seg.isDirac]

theorem cont_of {l : PF ℝ} (h : ∀ a m, Seg.dirac a m ∉ l) : ∀ s ∈ l, s.isDirac = false := by
  intro s hs
  cases s <;> first | rfl | exact absurd hs (h _ _)

theorem not_dirac {l : PF ℝ} (hc : ∀ s ∈ l, s.isDirac = false) (a m : ℝ) : Seg.dirac a m ∉ l := by
  intro h
  have := hc _ h
  simp [Seg.isDirac] at this

theorem wf_any {eps eps' : ℝ} {l : PF ℝ} (hc : ∀ s ∈ l, s.isDirac = false) (h : PF.WF eps l) : PF.WF eps' l := by
  refine ⟨h.seg, h.sorted.imp_of_mem fun {s t} h1 _ H => ⟨H.1, ?_⟩⟩
  rintro a m a' m' rfl -
  exact absurd h1 (not_dirac hc _ _)

theorem shift_cont {eps : ℝ} (he : 0 ≤ eps) {l r : PF ℝ} {a b : ℝ} (hb : b ≠ 0) (hw : PF.WF eps l) (hd : PF.Dens l)
    (hc : ∀ s ∈ l, s.isDirac = false) (h : shiftedScaled eps l a b = some r) : ∀ s ∈ r, s.isDirac = false := by
  refine cont_of fun x m hx => ?_
  obtain ⟨y, n, hy, -⟩ := shift_atoms he hb (wf_any hc hw) hd h x m hx
  exact not_dirac hc _ _ hy

/-- a power other than the special ones -/
theorem pow_cont {eps : ℝ} (he : 0 ≤ eps) {mass : Seg ℝ → ℝ} {l : PF ℝ} (hw : PF.WF eps l) (hd : PF.Dens l)
    (hc : ∀ s ∈ l, s.isDirac = false) (hp : PosPF l) {d : ℝ} (hd0 : d ≠ 0) :
    ∃ a b r, logDistr eps mass true l = some a ∧ shiftedScaled eps a 0 d = some b ∧ expDistr eps mass b = some r ∧
      PF.WF eps r ∧ PF.Dens r ∧ (PF.law r = (PF.law l).map fun x => x ^ d) ∧ ∀ s ∈ r, s.isDirac = false := by
  obtain ⟨a, b, r, e1, e2, e3, h1, h2, h3⟩ := pow_all (mass := mass) he hw hd hp (fun a m h => absurd h (not_dirac hc a m)) hd0
    (.of_continuous hc) (.of_continuous hc) (.of_continuous hc)
  refine ⟨a, b, r, e1, e2, e3, h1, h2, h3, ?_⟩
  obtain ⟨a', e1', w1, d1, -, at1⟩ := log_all (mass := mass) he hw hd hp (fun a m h => absurd h (not_dirac hc a m))
    (.of_continuous hc)
  obtain rfl : a = a' := by rw [e1] at e1'; exact Option.some.inj e1'
  have c1 : ∀ s ∈ a, s.isDirac = false := cont_of fun x m hx => by
    obtain ⟨y, n, hy, -⟩ := at1 x m hx
    exact not_dirac hc _ _ hy
  have c2 := shift_cont he hd0 w1 d1 c1 e2
  obtain ⟨b', e2', w2, d2, -⟩ := C18_law_continuous he hd0 0 w1 d1 c1
  obtain rfl : b = b' := by rw [e2] at e2'; exact Option.some.inj e2'
  obtain ⟨r', e3', -, -, -, at3⟩ := exp_all (mass := mass) he w2 d2 (.of_continuous c2)
  obtain rfl : r = r' := by rw [e3] at e3'; exact Option.some.inj e3'
  exact cont_of fun x m hx => by
    obtain ⟨y, n, hy, -⟩ := at3 x m hx
    exact not_dirac c2 _ _ hy

/-- one operation on a continuous distribution -/
theorem step_sound (M : Machine) (he : 0 ≤ M.env.eps) {l : PF ℝ} (hw : PF.WF M.env.eps l) (hd : PF.Dens l)
    (hc : ∀ s ∈ l, s.isDirac = false) (s : Step) (hs : StepOK (PosPF l) s) :
    ∃ r, s.run M l = some r ∧ PF.WF M.env.eps r ∧ PF.Dens r ∧ PF.law r = (PF.law l).map (stepFn s) := by
  cases s with
  | shiftScale a b => exact C18_law_continuous he hs a hw hd hc
  | abs => exact C19_law_continuous he hw hd hc
  | square =>
    have := C20_law_continuous he hw hd hc
    simpa only [stepFn, sq, Step.run] using this
  | inv =>
    have := C21_law_partial (pole := false) he hw hd hc
    simpa only [stepFn, one_div, Step.run] using this
  | exp => exact C22_exp he hw hd (.of_continuous hc)
  | log =>
    rw [Step.run, isNonneg_of hc hs]
    exact C22_log he hw hd hs (fun a m h => absurd h (not_dirac hc a m)) (.of_continuous hc)
  | atan => exact C22_atan he hw hd (.of_continuous hc)
  | pow d =>
    obtain ⟨hd0, h⟩ := hs
    by_cases h1 : d = 1
    · subst h1
      refine ⟨l, ?_, hw, hd, ?_⟩
      · rw [Step.run, powDistr, if_neg (by norm_num), if_pos rfl]; rfl
      · simp [stepFn, Measure.map_id']
    by_cases h2 : d = -1
    · subst h2
      obtain ⟨r, e, h3, h4, h5⟩ := C21_pow_partial (mass := M.mass) he (isNonneg l) hw hd hc
      refine ⟨r, by rw [Step.run, e]; rfl, h3, h4, ?_⟩
      simp only [stepFn, Real.rpow_neg_one]
      exact h5
    by_cases h3 : d = 2
    · subst h3
      obtain ⟨r, e, h3, h4, h5⟩ := C22_pow_two (mass := M.mass) he hw hd (.of_continuous hc) (isNonneg l)
      exact ⟨r, by rw [Step.run, e]; rfl, h3, h4, h5⟩
    have hp : PosPF l := by tauto
    obtain ⟨r, e, h3, h4, h5⟩ := C22_pow (mass := M.mass) he hw hd hp (fun a m h => absurd h (not_dirac hc a m)) hd0 h1 h2 h3
      (.of_continuous hc) (.of_continuous hc) (.of_continuous hc)
    exact ⟨r, by rw [Step.run, isNonneg_of hc hp, e]; rfl, h3, h4, h5⟩

/-- the operations whose result is known to contain no atoms -/
theorem step_cont (M : Machine) (he : 0 ≤ M.env.eps) {l : PF ℝ} (hw : PF.WF M.env.eps l) (hd : PF.Dens l)
    (hc : ∀ s ∈ l, s.isDirac = false) (s : Step) (hs : StepOK (PosPF l) s) (h1 : s ≠ .abs) (h2 : s ≠ .square) (h3 : s ≠ .atan)
    (h4 : s ≠ .pow 2) {r : PF ℝ} (hr : s.run M l = some r) : ∀ s ∈ r, s.isDirac = false := by
  cases s with
  | shiftScale a b => exact shift_cont he hs hw hd hc hr
  | abs => exact absurd rfl h1
  | square => exact absurd rfl h2
  | inv =>
    obtain ⟨r', e, -, -, -, h⟩ := inv_all (pole := false) he hw hd hc
    obtain rfl : r = r' := by rw [Step.run, e] at hr; exact (Option.some.inj hr).symm
    exact h
  | exp =>
    obtain ⟨r', e, -, -, -, h⟩ := exp_all (mass := M.mass) he hw hd (.of_continuous hc)
    obtain rfl : r = r' := by rw [Step.run, e] at hr; exact (Option.some.inj hr).symm
    exact cont_of fun x m hx => by
      obtain ⟨y, n, hy, -⟩ := h x m hx
      exact not_dirac hc _ _ hy
  | log =>
    obtain ⟨r', e, -, -, -, h⟩ := log_all (mass := M.mass) he hw hd hs (fun a m h => absurd h (not_dirac hc a m)) (.of_continuous hc)
    obtain rfl : r = r' := by rw [Step.run, isNonneg_of hc hs, e] at hr; exact (Option.some.inj hr).symm
    exact cont_of fun x m hx => by
      obtain ⟨y, n, hy, -⟩ := h x m hx
      exact not_dirac hc _ _ hy
  | atan => exact absurd rfl h3
  | pow d =>
    obtain ⟨hd0, h⟩ := hs
    rw [Step.run, powDistr, if_neg hd0] at hr
    by_cases g1 : d = 1
    · rw [if_pos g1] at hr
      cases hr
      exact hc
    by_cases g2 : d = -1
    · rw [if_neg g1, if_pos g2] at hr
      obtain ⟨r', e, -, -, -, h⟩ := inv_all (pole := false) he hw hd hc
      rw [e] at hr
      cases hr
      exact h
    by_cases g3 : d = 2
    · exact absurd (by rw [g3]) h4
    have hp : PosPF l := by tauto
    obtain ⟨a, b, r', e1, e2, e3, -, -, -, h⟩ := pow_cont (mass := M.mass) he hw hd hc hp hd0
    rw [if_neg g1, if_neg g2, if_neg g3, isNonneg_of hc hp, e1, Option.bind_some, e2, Option.bind_some, e3] at hr
    cases hr
    exact h

end Pacal.Identity
