import Verif.Sample.Lem
import Verif.Push.PropsComp

/-!
# Property C107

Samples of an expression are the values of the expression at the samples of its variables.
-/

namespace Pacal.Sample
open Real MeasureTheory Set

/-- **C107** (partial: sines and cosines of arguments within one period).  The samples of an expression, nested in any way and with any
sharing of variables, are the values of the expression: the `j`-th sample is the value at the `j`-th samples of the variables. -/
theorem C107_samples_partial (e : Expr) {n : ℕ} (draws : ℕ → Fin n → ℝ) (h : ∀ j, e.Defined fun i => draws i j) :
    e.rand (fun i => List.ofFn (draws i)) = List.ofFn fun j => e.value fun i => draws i j := by
  simp only [List.ofFn_eq_map]
  induction e with
  | var i => rfl
  | one o e ih =>
    rw [Expr.rand, ih fun j => (h j).1, rand1_map]
    · simp [Expr.value, Function.comp_def]
    · intro x hx
      obtain ⟨j, -, rfl⟩ := List.mem_map.1 hx
      exact (h j).2
  | two o e e' ih ih' =>
    have h1 : ∀ j, e.Defined fun i => draws i j := fun j => by cases o <;> exact (h j).1
    have h2 : ∀ j, e'.Defined fun i => draws i j := fun j => by
      cases o <;> first | exact (h j).2 | exact (h j).2.1
    rw [Expr.rand, ih h1, ih' h2, rand2_map]
    rfl

/-- **C107** is violated by sines and cosines of arguments outside of one period: the samples are 0. -/
theorem C107_violated_period (xs : List ℝ) :
    ((∀ x ∈ xs, x < -π / 2 ∨ 3 * π / 2 < x) → Op1.sin.rand xs = xs.map fun _ => 0) ∧
    ((∀ x ∈ xs, x < 0 ∨ 2 * π < x) → Op1.cos.rand xs = xs.map fun _ => 0) := by
  have hp := pi_pos
  constructor
  · intro h
    rw [Op1.rand, noninjective_map]
    refine List.map_congr_left fun x hx => if_neg ?_
    rintro ⟨p, hp', h1, h2⟩
    simp only [sinIntervals, List.mem_cons, List.not_mem_nil, or_false] at hp'
    rcases hp' with rfl | rfl <;> rcases h x hx with h3 | h3 <;> simp only at h1 h2 <;> linarith
  · intro h
    rw [Op1.rand, noninjective_map]
    refine List.map_congr_left fun x hx => if_neg ?_
    rintro ⟨p, hp', h1, h2⟩
    simp only [cosIntervals, List.mem_cons, List.not_mem_nil, or_false] at hp'
    rcases hp' with rfl | rfl <;> rcases h x hx with h3 | h3 <;> simp only at h1 h2 <;> linarith

/-- Finding: the samples of `cos(X)` and the density computed for it are different laws as soon as `X` leaves one period.  The density
lacks the probability that `X` is outside of `[0, 2π)`; the samples have that probability at 0. -/
theorem C107_finding_cos_law {eps : ℝ} {mass : Seg ℝ → ℝ} {l : PF ℝ} (he : 0 ≤ eps) (hl : PF.WF eps l) (hd : PF.Dens l)
    (ha : PF.ImagesApart eps Real.cos l) (h0 : PF.law l {2 * π} = 0) :
    ∃ r, cosDistr eps mass l = some r ∧
      (PF.law l).map (fun x => (Op1.cos.rand [x]).headD 0) = PF.law r + PF.law l (Ico 0 (2 * π))ᶜ • Measure.dirac 0 := by
  classical
  obtain ⟨r, h1, -, -, h2⟩ := C22_cos_partial (mass := mass) he hl hd ha
  refine ⟨r, h1, ?_⟩
  have hp := pi_pos
  have e : (fun x => (Op1.cos.rand [x]).headD 0) =ᵐ[PF.law l] (Ico 0 (2 * π)).indicator Real.cos := by
    have : ∀ᵐ x ∂ PF.law l, x ≠ 2 * π := by
      rw [ae_iff]
      simpa using h0
    filter_upwards [this] with x hx
    by_cases h : 0 ≤ x ∧ x ≤ 2 * π
    · have h3 : x ∈ Ico 0 (2 * π) := ⟨h.1, lt_of_le_of_ne h.2 hx⟩
      rw [rand1_map .cos [x] (by simpa [Op1.Defined] using h), indicator_of_mem h3]
      rfl
    · have h3 : x ∉ Ico 0 (2 * π) := fun h' => h ⟨h'.1, h'.2.le⟩
      rw [(C107_violated_period [x]).2 (by
        intro y hy
        obtain rfl := List.mem_singleton.1 hy
        by_contra hc
        push Not at hc
        exact h hc), indicator_of_notMem h3]
      rfl
  have m : Measurable ((Ico 0 (2 * π)).indicator Real.cos) := measurable_cos.indicator measurableSet_Ico
  rw [Measure.map_congr e, h2]
  conv_lhs => rw [← Measure.restrict_add_restrict_compl (μ := PF.law l) (s := Ico 0 (2 * π)) measurableSet_Ico]
  rw [Measure.map_add _ _ m]
  congr 1
  · exact Measure.map_congr (ae_restrict_of_forall_mem measurableSet_Ico fun x hx => indicator_of_mem hx _)
  · rw [Measure.map_congr (g := fun _ => (0 : ℝ))
      (ae_restrict_of_forall_mem measurableSet_Ico.compl fun x hx => indicator_of_notMem hx _), Measure.map_const,
      Measure.restrict_apply_univ]

/-! ### non-vacuity -/

/-- `cos(X) * X - abs(Y)` for two draws `(0, 1)` and `(π, -2)` of `(X, Y)` -/
example : (Expr.two .sub (.two .mul (.one .cos (.var 0)) (.var 0)) (.one .abs (.var 1))).rand
    (fun i => List.ofFn fun j : Fin 2 => if i = 0 then (if j = 0 then 0 else π) else if j = 0 then 1 else -2) = [-1, -π - 2] := by
  rw [C107_samples_partial]
  · simp [Expr.value, Op1.fn, Op2.fn, List.ofFn_succ]
  · intro j
    have hp := pi_pos
    refine ⟨⟨⟨trivial, ?_⟩, trivial⟩, trivial, trivial⟩
    show 0 ≤ _ ∧ _
    simp only [Expr.value, if_true]
    split_ifs
    · constructor <;> linarith
    · constructor <;> linarith

/-- the cosine of `2π + 1` is positive, but its samples are 0 -/
example : Op1.cos.rand [2 * π + 1] = [0] ∧ 0 < Real.cos (2 * π + 1) := by
  refine ⟨(C107_violated_period [2 * π + 1]).2 ?_, ?_⟩
  · intro x hx
    obtain rfl := List.mem_singleton.1 hx
    exact .inr (by linarith)
  · rw [add_comm, Real.cos_add_two_pi]
    exact Real.cos_one_pos

/-- `X` uniform on `[2π, 2π + 1]`: the density computed for `cos(X)` has no mass, the samples are all 0 -/
example {mass : Seg ℝ → ℝ} : ∃ r, cosDistr 0 mass [.const (2 * π) (2 * π + 1) 1] = some r ∧
    (PF.law [.const (2 * π) (2 * π + 1) 1]).map (fun x => (Op1.cos.rand [x]).headD 0) =
      PF.law r + PF.law [.const (2 * π) (2 * π + 1) 1] (Ico 0 (2 * π))ᶜ • Measure.dirac 0 := by
  obtain ⟨hw, hd, -, -⟩ := C22_violated_cos (mass := mass) (eps := 0) le_rfl
  have := PF.law_finite hd
  refine C107_finding_cos_law le_rfl hw hd (.of_continuous fun s hs => ?_) ?_
  · obtain rfl := List.mem_singleton.1 hs
    rfl
  · have h := law_singleton hd (2 * π)
    rw [show PF.massAt [Seg.const (2 * π) (2 * π + 1) 1] (2 * π) = 0 by simp [PF.massAt, Seg.massAt]] at h
    exact (measureReal_eq_zero_iff).1 h

end Pacal.Sample
