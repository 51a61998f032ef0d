import Verif.Direct.LemDens
import Verif.Direct.LemArr
import Verif.Law.Congr
import Mathlib.Analysis.Real.Pi.Bounds
import Mathlib.MeasureTheory.Function.AEEqOfLIntegral

/-! # C100: `pdf(x)` of a function of a variable is its density -/

namespace Pacal.Direct
open MeasureTheory Set Real

variable {μ : (Option ℝ → Option ℝ) → Measure ℝ} {e : Expr}

/-- **C100, densities**: if the distributions at the bottom answer with a density, so does every distribution built
from them by shifting and scaling, `exp`, `log` (of positive variables), `atan`, `tanh`, the logistic function, `tan`
(of variables in `(-π/2, π/2)`), reciprocals, absolute values and squares, nested in any way.  Missing: variables with
atoms (violated, see below) and bounded functions of a variable whose density divides by its argument (violated). -/
theorem C100_density_partial (hd : e.Sound μ) (hs : e.Safe) (np : Bool) :
    IsDensity (fun x => e.pdf ⟨some x, np⟩) (e.law μ) := by
  obtain ⟨f, h1, h2, h3, h4⟩ := dense_all e hd hs
  exact ⟨f, h1, h2, h3.mono fun x hx => hx np, h4⟩

/-- **C100, agreement with the piecewise density**: whatever list of pieces without atoms represents the distribution of
the variable (C18 to C23 give one for each operation), its values are the answers of `pdf` up to a set of length 0 -/
theorem C100_piecewise_partial (hd : e.Sound μ) (hs : e.Safe) (np : Bool) {r : PF ℝ} (hr : PF.Dens r)
    (hc : ∀ s ∈ r, s.isDirac = false) (hl : PF.law r = e.law μ) :
    ∀ᵐ x, e.pdf ⟨some x, np⟩ = .ok (some (PF.val r x)) := by
  obtain ⟨f, h1, h2, h3, h4⟩ := dense_all e hd hs
  have e1 : PF.law r = volume.withDensity fun x => ENNReal.ofReal (PF.val r x) := by
    rw [PF.law_decomp (S := ∅) hr fun a m hm => absurd (hc _ hm) (by simp [Seg.isDirac])]
    simp
  rw [e1, h4] at hl
  have e2 := (withDensity_eq_iff_of_sigmaFinite
    (PF.val_integrable hr).aestronglyMeasurable.aemeasurable.ennreal_ofReal
    h1.ennreal_ofReal.aemeasurable).1 hl
  filter_upwards [h3, e2, PF.val_nonneg hr] with x ha hb hn
  rw [ha np]
  have : PF.val r x = f x := (ENNReal.ofReal_eq_ofReal_iff hn (h2 x)).1 hb
  rw [this]

/-- **C100, arrays**: without reciprocals and squares an array of numbers is evaluated entry by entry -/
theorem C100_arrays_partial (hp : e.Pointwise) (hs : e.Safe) (hq : e.Quiet) (xs : List ℝ) :
    ∃ ys, e.pdfArr (xs.map some) = .ok ys ∧ List.Forall₂ (fun x y => e.pdf ⟨some x, true⟩ = .ok y) xs ys := by
  obtain ⟨ys, h1, h2⟩ := arr_all e hp hs hq (xs.map some)
  exact ⟨ys, h1, List.forall₂_map_left_iff.1 h2⟩

/-- **C100, arrays for reciprocals**: of numbers different from 0 -/
theorem C100_arrays_inverse_partial (hp : e.Pointwise) (hs : e.Safe) (hq : e.Quiet) {xs : List ℝ}
    (h0 : ∀ x ∈ xs, x ≠ 0) :
    ∃ ys, (Expr.inv e).pdfArr (xs.map some) = .ok ys ∧
      List.Forall₂ (fun x y => (Expr.inv e).pdf ⟨some x, true⟩ = .ok y) xs ys := by
  have hf : (xs.map some).filter (fun x => !decide (x = some (0 : ℝ))) = xs.map some := by
    rw [List.filter_eq_self]
    intro x hx
    obtain ⟨v, hv, rfl⟩ := List.mem_map.1 hx
    simpa using h0 v hv
  obtain ⟨ys, h1, h2⟩ := arr_all e hp hs hq ((xs.map some).map fun x => x.map fun x => 1.0 / x)
  rw [List.forall₂_map_left_iff] at h2
  have h3 := List.forall₂_map_left_iff.1 h2
  have hl : ys.length = (xs.map some).length := h2.length_eq.symm
  have h4 : List.Forall₂ (fun x y => x ∈ xs.map some → (Expr.inv e).pdf ⟨x, true⟩ = .ok y) (xs.map some)
      (List.zipWith (both fun y x => y / x ^ 2) ys (xs.map some)) := by
    refine forall_zip (S := fun x z => x = z) ?_ h2 (List.forall₂_same.2 fun _ _ => rfl)
    rintro x y _ hy rfl hx
    obtain ⟨v, hv, rfl⟩ := List.mem_map.1 hx
    have hy : e.pdf ⟨some (1.0 / v), true⟩ = .ok y := hy
    simp only [Expr.pdf, if_neg (h0 v hv)]
    rw [hy]
    cases y <;> rfl
  obtain ⟨v, hv⟩ : ∃ v, v = List.zipWith (both fun y x : ℝ => y / x ^ 2) ys (xs.map some) := ⟨_, rfl⟩
  rw [← hv] at h4
  have h5 : List.Forall₂ (fun _ _ => True) ((xs.map some).filter fun x => !decide (x = some (0 : ℝ))) v := by
    rw [hf]; exact h4.imp fun _ _ _ => trivial
  obtain ⟨r, h6, -⟩ := assign_spec h5
  refine ⟨v, ?_, ?_⟩
  · simp only [Expr.pdfArr]
    rw [hf, h1, ok_bind, broadcast_eq _ hl, ok_bind, ← hv, h6]
    rfl
  · rw [List.forall₂_map_left_iff] at h4
    have : ∀ {l : List ℝ} {r : List (Option ℝ)}, List.Forall₂ (fun x y => some x ∈ xs.map some →
        (Expr.inv e).pdf ⟨some x, true⟩ = .ok y) l r → (∀ x ∈ l, x ∈ xs) →
        List.Forall₂ (fun x y => (Expr.inv e).pdf ⟨some x, true⟩ = .ok y) l r := by
      intro l r h
      induction h with
      | nil => exact fun _ => .nil
      | cons a _ ih =>
        intro hx
        exact .cons (a (List.mem_map_of_mem (hx _ List.mem_cons_self))) (ih fun x h => hx x (List.mem_cons_of_mem _ h))
    exact this h4 fun x hx => hx

/-! ### Violations -/

/-- **C100 violated by arrays with a 0 for reciprocals**: `(1/X).pdf(array([0, 1]))` has one entry instead of two, because
the name of the array of zeros is given to the array of the other entries. -/
theorem C100_violated_inverse_array (p : Option ℝ → Option ℝ) :
    (Expr.inv (.base p)).pdfArr [some 0, some 1] = .ok [both (fun y x => y / x ^ 2) (p (some (1.0 / 1))) (some 1)] := by
  have hf : [some (0 : ℝ), some 1].filter (fun x => !decide (x = some (0 : ℝ))) = [some 1] := by
    simp [List.filter]
  simp only [Expr.pdfArr]
  rw [hf, ok_bind]
  have ha : ∀ v : Option ℝ, ∃ r, assign (fun x => !decide (x = some (0 : ℝ))) [some 0, some 1] [v] = .ok r :=
    fun v => ⟨_, by
      unfold assign; exact if_pos (Or.inr (by simp))⟩
  obtain ⟨r, hr⟩ := ha (both (fun y x => y / x ^ 2) (p (some (1.0 / 1))) (some 1))
  show (assign _ _ [both (fun y x => y / x ^ 2) (p (some (1.0 / 1))) (some 1)] >>= fun _ => _) = _
  rw [hr]
  rfl

/-- **C100 violated by all arrays with zeros for reciprocals**: the result has an entry for every number different from 0 and none for the
zeros, so that it is shorter than the array. -/
theorem C100_violated_inverse_length (hp : e.Pointwise) (hs : e.Safe) (hq : e.Quiet) {xs : List ℝ} (h0 : (0 : ℝ) ∈ xs) :
    ∃ ys, (Expr.inv e).pdfArr (xs.map some) = .ok ys ∧ ys.length + xs.count 0 = xs.length ∧ ys.length < xs.length := by
  obtain ⟨zs, hz⟩ : ∃ zs, zs = (xs.map some).filter (fun x => !decide (x = some (0 : ℝ))) := ⟨_, rfl⟩
  obtain ⟨ys, h1, h2⟩ := arr_all e hp hs hq (zs.map fun x => x.map fun x => 1.0 / x)
  rw [List.forall₂_map_left_iff] at h2
  have hl : ys.length = zs.length := h2.length_eq.symm
  obtain ⟨v, hv⟩ : ∃ v, v = List.zipWith (both fun y x : ℝ => y / x ^ 2) ys zs := ⟨_, rfl⟩
  have hvl : v.length = zs.length := by rw [hv, List.length_zipWith, hl, min_self]
  have h5 : List.Forall₂ (fun _ _ => True) ((xs.map some).filter fun x => !decide (x = some (0 : ℝ))) v := by
    rw [← hz]; exact List.forall₂_iff_get.2 ⟨hvl.symm, fun _ _ _ => trivial⟩
  obtain ⟨r, h6, -⟩ := assign_spec h5
  have hc : zs.length + xs.count 0 = xs.length := by
    rw [hz]
    clear h0 h5 h6 hz h1 h2 hl hv hvl
    induction xs with
    | nil => rfl
    | cons x xs ih =>
      by_cases hx : x = 0
      · subst hx; simpa [List.filter_cons, ← add_assoc] using ih
      · simp [List.filter_cons, hx, List.count_cons]; omega
  have hpos : 0 < xs.count 0 := List.count_pos_iff.2 h0
  refine ⟨v, ?_, by rw [hvl]; exact hc, by omega⟩
  simp only [Expr.pdfArr]
  rw [← hz, h1, ok_bind, broadcast_eq _ hl, ok_bind, ← hv, h6]
  rfl

/-- **C100 violated by arrays for squares**: `(X**2).pdf(x)` raises ValueError for every array with more than one
entry. -/
theorem C100_violated_square_array (d : Expr) {xs : List (Option ℝ)} (h : 2 ≤ xs.length) :
    (Expr.square d).pdfArr xs = .error .value := by
  rw [Expr.pdfArr, if_pos h]

/-- **C100 violated by bounded functions of reciprocals**: `atan(1/X).pdf(x)` raises ZeroDivisionError for every `x`
from 2 on, where the density is 0. -/
theorem C100_violated_atan_inverse (d : Expr) {x : ℝ} (hx : 2 ≤ x) (np : Bool) :
    (Expr.func .atan (.inv d)).pdf ⟨some x, np⟩ = .error .zeroDivision := by
  have h0 : x ≤ -π / 2 ∨ x ≥ π / 2 := Or.inr (by linarith [Real.pi_le_four])
  have h1 : Func.inv .atan x = ⟨some 0, false⟩ := by
    simp only [Func.inv, atanInv, if_pos h0, decide_eq_true h0, Bool.not_true]
  simp only [Expr.pdf, h1]
  rfl

/-- **C100 violated by bounded functions of exponentials**: `tanh(exp(X)).pdf(x)` raises ZeroDivisionError for every
`x` from 1 on, where the density is 0 (the distribution `X` only has to answer for nan). -/
theorem C100_violated_tanh_exp (p : Option ℝ → Option ℝ) {x : ℝ} (hx : 1 ≤ x) (np : Bool) :
    (Expr.func .tanh (.func .exp (.base p))).pdf ⟨some x, np⟩ = .error .zeroDivision := by
  have h0 : x ≤ -1 ∨ x ≥ 1 := Or.inr hx
  have h1 : Func.inv .tanh x = ⟨some 0, false⟩ := by
    simp only [Func.inv, tanhInv, if_pos h0, decide_eq_true h0, Bool.not_true]
  simp only [Expr.pdf, h1, Func.invDeriv, if_true]
  rfl

/-- the fair coin on 0 and 1 -/
noncomputable def coin : List (ℝ × ℝ) := [(0, 1 / 2), (1, 1 / 2)]

/-- **C100 violated by multiples of discrete variables**: `pdf` of a discrete distribution gives probabilities; for
twice the fair coin on 0 and 1 it gives 1/4 at 2 instead of 1/2. -/
theorem C100_violated_discrete_scale (np : Bool) :
    (Expr.base (discretePdf coin)).pdf ⟨some 1, np⟩ = .ok (some (1 / 2)) ∧
    (Expr.shifted 0 2 (.base (discretePdf coin))).pdf ⟨some 2, np⟩ = .ok (some (1 / 4)) := by
  constructor
  · simp [Expr.pdf, discretePdf, coin]
  · have h : oneScale 2 = 1 / 2 := by unfold oneScale; norm_num
    simp only [Expr.pdf, Option.map_some, discretePdf, coin, h]
    show Except.ok (some _) = _
    norm_num [abs_of_pos]

/-- **C100 violated by the absolute value of discrete variables**: `pdf(0)` of the absolute value of the fair coin on 0
and 1 is 1 instead of 1/2. -/
theorem C100_violated_discrete_abs (np : Bool) :
    (Expr.abs (.base (discretePdf coin))).pdf ⟨some 0, np⟩ = .ok (some 1) := by
  have h0 : ¬ ∃ v : ℝ, some (0 : ℝ) = some v ∧ v < 0 := by
    rintro ⟨v, h, h'⟩; cases h; exact lt_irrefl _ h'
  simp only [Expr.pdf, if_neg h0, Option.map_some, discretePdf, coin]
  show Except.ok (some _) = _
  norm_num

/-! ### A concrete case -/

/-- the uniform distribution on `[0, 1)`, which answers 0 for nan -/
noncomputable def unifPdf : Option ℝ → Option ℝ
  | some x => some ((Ico (0 : ℝ) 1).indicator (fun _ => 1) x)
  | none => some 0

/-- its distribution -/
noncomputable def unifLaw : Measure ℝ := volume.withDensity fun x => ENNReal.ofReal ((Ico (0 : ℝ) 1).indicator (fun _ => 1) x)

theorem unif_sound : (Expr.base unifPdf).Sound fun _ => unifLaw :=
  ⟨⟨_, measurable_const.indicator measurableSet_Ico, fun x => indicator_nonneg (fun _ _ => zero_le_one) x,
    Filter.Eventually.of_forall fun _ => rfl, rfl⟩, Or.inr rfl⟩

/-- `atan((2*exp(X) + 1)**2)`, `X` uniform, meets the hypotheses -/
example : IsDensity (fun x => (Expr.func .atan (.square (.shifted 1 2 (.func .exp (.base unifPdf))))).pdf ⟨some x, true⟩)
    ((((unifLaw.map Real.exp).map fun x => 2 * x + 1).map fun x => x * x).map Real.arctan) :=
  C100_density_partial (μ := fun _ => unifLaw)
    (e := .func .atan (.square (.shifted 1 2 (.func .exp (.base unifPdf)))))
    ⟨by simp [Func.dom], two_ne_zero, by simp [Func.dom], unif_sound⟩
    ⟨fun _ => trivial, ⟨by simp, trivial⟩⟩ true

/-- the density of `1/X` at 2 for the uniform distribution -/
example : (Expr.inv (.base unifPdf)).pdf ⟨some 2, false⟩ = .ok (some (1 / 4)) := by
  simp only [Expr.pdf, if_neg (two_ne_zero' ℝ), unifPdf]
  show Except.ok (some _) = _
  rw [indicator_of_mem (by constructor <;> norm_num)]
  norm_num

example (xs : List ℝ) : ∃ ys, (Expr.abs (.func .tanh (.base unifPdf))).pdfArr (xs.map some) = .ok ys ∧
    List.Forall₂ (fun x y => (Expr.abs (.func .tanh (.base unifPdf))).pdf ⟨some x, true⟩ = .ok y) xs ys :=
  C100_arrays_partial (e := .abs (.func .tanh (.base unifPdf))) trivial ⟨fun _ => trivial, trivial⟩ (Or.inr rfl) xs

/-- three of five numbers are 0: two densities of `1/|tanh(X)|` are returned -/
example : ∃ ys, (Expr.inv (.abs (.func .tanh (.base unifPdf)))).pdfArr ([0, 1, 0, 2, 0].map some) = .ok ys ∧ ys.length = 2 := by
  obtain ⟨ys, h1, h2, -⟩ := C100_violated_inverse_length (e := .abs (.func .tanh (.base unifPdf))) trivial ⟨fun _ => trivial, trivial⟩
    (Or.inr rfl) (xs := [0, 1, 0, 2, 0]) (by simp)
  refine ⟨ys, h1, ?_⟩
  norm_num [List.count_cons] at h2
  omega

end Pacal.Direct
