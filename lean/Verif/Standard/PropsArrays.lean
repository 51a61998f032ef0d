import Verif.Standard.LemArrays

/-!
# C102: densities on arrays; C103: logarithms of densities
-/

namespace Pacal.Standard
open Real

/-- **C102**: the density of a standard distribution on an array of floats is the array of the densities at its entries.
Missing: the semicircle and the log-logistic distribution outside of their ranges, and arrays of integers (violated). -/
theorem C102_arrays_partial {E : Env} {d : Kind} {f : ℝ → Except PyErr Flt}
    {g : Bool → List ℝ → Except PyErr (List Flt)} (hf : d.pdfNumber E = some f) (hg : d.pdfArray E = some g) (xs : List ℝ)
    (h1 : ∀ R, d = .semicircle R → ∀ x ∈ xs, |x| ≤ R) (h2 : ∀ k s, d = .logLogistic k s → ∀ x ∈ xs, 0 ≤ x) :
    Elementwise f (g false) xs := by
  cases d with
  | uniform a b => cases hf
  | trapezoidal a b c e => cases hf
  | normal a b => cases hf; cases hg; exact elementwise_map rfl fun _ _ => rfl
  | cauchy a b => cases hf; cases hg; exact elementwise_map rfl fun _ _ => rfl
  | laplace a b => cases hf; cases hg; exact elementwise_map rfl fun _ _ => rfl
  | studentT a => cases hf; cases hg; exact elementwise_map rfl fun _ _ => rfl
  | chiSquare df =>
    cases hf; cases hg
    refine elementwise_map (h := chiSquarePdf E.lg df) ?_ fun _ _ => rfl
    dsimp only
    rw [masked_eq]
    refine (congrArg Except.ok (putNum_eq _ _ _ xs)).trans (congrArg Except.ok (List.map_congr_left fun x _ => ?_))
    unfold chiSquarePdf
    rcases lt_trichotomy x 0 with h | h | h
    · simp [h, h.ne, h.le]
    · simp [h]
    · simp [h, h.ne', h.not_gt]
  | gamma k theta =>
    cases hf; cases hg
    refine elementwise_map (h := gammaPdf E.lg k theta) ?_ fun _ _ => rfl
    dsimp only
    rw [masked_eq]
    refine (congrArg Except.ok (putNum_eq _ _ _ xs)).trans (congrArg Except.ok (List.map_congr_left fun x _ => ?_))
    unfold gammaPdf
    rcases lt_trichotomy x 0 with h | h | h
    · simp [h, h.ne, h.le]
    · simp [h]
    · simp [h, h.ne', h.not_gt]
  | weibull k l =>
    cases hf; cases hg
    refine elementwise_map (h := weibullPdf k l) ?_ fun _ _ => rfl
    dsimp only
    rw [masked_eq]
    refine (congrArg Except.ok (putNum_eq _ _ _ xs)).trans (congrArg Except.ok (List.map_congr_left fun x _ => ?_))
    unfold weibullPdf
    rcases lt_trichotomy x 0 with h | h | h
    · simp [h, h.ne, h.le]
    · simp [h]
    · simp [h, h.ne', h.not_gt]
  | fDistr a b =>
    cases hf; cases hg
    refine elementwise_map (h := fPdf E.lg a b) ?_ fun _ _ => rfl
    dsimp only
    unfold put
    dsimp only
    rw [if_pos (List.length_map _)]
    unfold zerosLike
    rw [putNum_eq, place_map]
    refine congrArg Except.ok (List.map_congr_left fun x _ => ?_)
    unfold fPdf
    rcases lt_trichotomy x 0 with h | h | h
    · simp [h, h.ne, h.not_gt]
    · simp [h]
    · simp [h, h.ne', h.not_gt]
  | exponential l =>
    cases hf; cases hg
    refine elementwise_map (masked_eq _ _ xs) fun x _ => congrArg Except.ok ?_
    unfold exponentialPdf
    by_cases h : x < 0
    · simp [h, h.not_ge]
    · simp [h, not_lt.1 h]
  | beta a b =>
    cases hf; cases hg
    refine elementwise_map (masked_eq _ _ xs) fun x _ => congrArg Except.ok ?_
    unfold betaPdf
    by_cases h : x < 0 ∨ x > 1
    · have : ¬(0 ≤ x ∧ x ≤ 1) := fun h' => h.elim (fun h => absurd h h'.1.not_gt) fun h => absurd h h'.2.not_gt
      simp only [h, if_true, ge_iff_le, Bool.and_eq_true, decide_eq_true_eq, this, if_false]
    · have h' : 0 ≤ x ∧ x ≤ 1 := ⟨not_lt.1 fun h' => h (.inl h'), not_lt.1 fun h' => h (.inr h')⟩
      simp only [h, if_false, ge_iff_le, Bool.and_eq_true, decide_eq_true_eq, h', and_self, if_true]
  | pareto a m =>
    cases hf; cases hg
    refine elementwise_map (masked_eq _ _ xs) fun x _ => congrArg Except.ok ?_
    unfold paretoPdf
    by_cases h : x < m
    · simp [h, h.not_ge]
    · simp [h, not_lt.1 h]
  | levy c m =>
    cases hf; cases hg
    refine elementwise_map (masked_eq _ _ xs) fun x _ => congrArg Except.ok ?_
    unfold levyPdf
    by_cases h : x ≤ m
    · simp only [h, if_true, gt_iff_lt, decide_eq_true_eq, h.not_gt, if_false]
    · simp only [h, if_false, gt_iff_lt, decide_eq_true_eq, not_le.1 h, if_true]
  | gumbel mu s =>
    cases hf; cases hg
    refine elementwise_map (masked_eq _ _ xs) fun x _ => congrArg Except.ok ?_
    unfold gumbelPdf
    dsimp only
    by_cases h : 1 / s * (mu - x) > E.M
    · simp only [h, if_true, decide_eq_true_eq, (not_le.2 h), if_false]
    · simp only [h, if_false, decide_eq_true_eq, not_lt.1 h, if_true]
  | frechet a s m =>
    cases hf; cases hg
    refine elementwise_map (masked_eq _ _ xs) fun x _ => congrArg Except.ok ?_
    unfold frechetPdf
    dsimp only
    by_cases h : (x - m) / s ≤ 0
    · simp only [h, if_true, gt_iff_lt, decide_eq_true_eq, h.not_gt, if_false]
    · simp only [h, if_false, gt_iff_lt, decide_eq_true_eq, not_le.1 h, if_true]
  | mollifier e =>
    cases hf; cases hg
    refine elementwise_map (masked_eq _ _ xs) fun x _ => congrArg Except.ok ?_
    unfold mollifierPdf
    dsimp only
    by_cases h : |x| ≥ e
    · simp only [h, if_true, decide_eq_true_eq, h.not_gt, if_false]
    · simp only [h, if_false, decide_eq_true_eq, not_le.1 h, if_true, sq]
  | semicircle R =>
    cases hf; cases hg
    have hx := h1 R rfl
    refine elementwise_map (unmasked_eq _ _ xs fun x h => ?_) fun x h => ?_
    · have := abs_le.1 (hx x h)
      simp [this.1, this.2]
    · have h3 := abs_le.1 (hx x h)
      have h4 : 0 ≤ R * R - x * x := by nlinarith [h3.1, h3.2]
      simp only [semicirclePdf, h3.1, h3.2, and_self, if_true, h4]
  | logLogistic k s =>
    cases hf; cases hg
    have hx := h2 k s rfl
    refine elementwise_map (unmasked_eq _ _ xs fun x h => by simpa using hx x h) fun x h => congrArg Except.ok ?_
    unfold logLogisticPdf
    rw [if_pos (hx x h)]

/-- the hypotheses hold for instance for the semicircle and the points -1, 0 and 1/2 -/
example : ∀ R, Kind.semicircle 1 = .semicircle R → ∀ x ∈ [(-1 : ℝ), 0, 1 / 2], |x| ≤ R := by
  intro R h x hx
  cases h
  rw [abs_le]
  fin_cases hx <;> norm_num

/-- **C102, arrays of integers**: of the distributions that start from an array of floats, or do not use masks, the
density on an array of integers is the array of the densities too -/
theorem C102_integers {E : Env} {d : Kind} {f : ℝ → Except PyErr Flt}
    {g : Bool → List ℝ → Except PyErr (List Flt)} (hf : d.pdfNumber E = some f) (hg : d.pdfArray E = some g)
    (hd : match d with
      | .normal _ _ | .cauchy _ _ | .laplace _ _ | .studentT _ | .chiSquare _ | .gumbel _ _ => True
      | _ => False) (ns : List ℤ) :
    Elementwise f (g true) (ns.map (↑)) := by
  have key := C102_arrays_partial hf hg (ns.map (↑)) (fun R h => by subst h; exact hd.elim)
    fun k s h => by subst h; exact hd.elim
  cases d with
  | normal a b => cases hg; exact key
  | cauchy a b => cases hg; exact key
  | laplace a b => cases hg; exact key
  | studentT a => cases hg; exact key
  | chiSquare a => cases hg; exact key
  | gumbel a b => cases hg; exact key
  | _ => exact hd.elim

/-! ### Violations -/

theorem unmasked_error {int : Bool} {mask : ℝ → Bool} {f : ℝ → Flt} {xs : List ℝ} (h2 : 2 ≤ xs.length) {x : ℝ} (hx : x ∈ xs)
    (hm : mask x = false) : unmasked int mask f xs = .error .value := by
  have hl : (xs.filter mask).length < xs.length := by
    refine lt_of_le_of_ne (List.length_filter_le _ _) fun he => ?_
    have := List.length_filter_eq_length_iff.1 he x hx
    rw [hm] at this
    exact absurd this (by decide)
  match xs, h2 with
  | a :: b :: l, _ =>
    have hn : (List.map f (a :: b :: l)).length ≠ ((a :: b :: l).filter mask).length := by rw [List.length_map]; exact hl.ne'
    simp only [unmasked, put]
    rw [if_neg hn]
    rfl

/-- **C102 violated by the semicircle distribution**: a point outside of the range makes the call on an array with two or
more entries fail with ValueError (`SemicircleDistr(1).pdf(array([0.0, 2.0]))`), wherever the point is. -/
theorem C102_violated_semicircle (E : Env) (R : ℝ) (int : Bool) (xs : List ℝ) (h2 : 2 ≤ xs.length) (ho : ∃ x ∈ xs, x < -R ∨ R < x) :
    (Kind.pdfArray E (.semicircle R)).map (fun g => g int xs) = some (.error .value) := by
  obtain ⟨x, hx, ho⟩ := ho
  refine congrArg some (unmasked_error h2 hx ?_)
  rcases ho with h | h <;> simp [h]

example (E : Env) : (Kind.pdfArray E (.semicircle 1)).map (fun g => g false [0, 2]) = some (.error .value) :=
  C102_violated_semicircle E 1 false _ (by simp) ⟨2, by simp, .inr (by norm_num)⟩

/-- **C102 violated by the log-logistic distribution**: a negative point makes the call on an array with two or more entries
fail with ValueError (`LogLogisticDistr(2).pdf(array([-1.0, 1.0]))`), although the density there is 0. -/
theorem C102_violated_logLogistic (E : Env) (k s : ℝ) (int : Bool) (xs : List ℝ) (h2 : 2 ≤ xs.length) {x : ℝ} (hx : x ∈ xs) (h0 : x < 0) :
    (Kind.pdfArray E (.logLogistic k s)).map (fun g => g int xs) = some (.error .value) ∧
    (Kind.pdfNumber E (.logLogistic k s)).map (fun f => f x) = some (.ok (Flt.real 0)) := by
  constructor
  · exact congrArg some (unmasked_error h2 hx (by simp [h0]))
  · simp [Kind.pdfNumber, logLogisticPdf, h0, h0.le]

example (E : Env) : (Kind.pdfArray E (.logLogistic 2 1)).map (fun g => g false [-1, 1]) = some (.error .value) :=
  (C102_violated_logLogistic E 2 1 false _ (by simp) (x := -1) (by simp) (by norm_num)).1

/-- **C102 violated by arrays of integers**: the exponential density at the integer 1 is `exp(-1)`, but in an array of
integers it is truncated to 0 (`ExponentialDistr(1).pdf(array([1]))`). -/
theorem C102_violated_integers (E : Env) :
    (Kind.pdfArray E (.exponential 1)).map (fun g => g true [((1 : ℤ) : ℝ)]) = some (.ok [Flt.real 0]) ∧
    (Kind.pdfNumber E (.exponential 1)).map (fun f => f ((1 : ℤ) : ℝ)) = some (.ok (Flt.real (exp (-1)))) := by
  have h0 : ⌊exp (-1 : ℝ)⌋ = 0 := by
    rw [Int.floor_eq_zero_iff]
    exact ⟨(exp_pos _).le, by rw [Real.exp_lt_one_iff]; norm_num⟩
  have h1 : (0 : ℝ) ≤ exp (-1) := (exp_pos _).le
  constructor
  · simp [Kind.pdfArray, masked, put, place, zerosLike, store, Flt.real, h0, h1]
  · norm_num [Kind.pdfNumber, exponentialPdf]

/-! ### Logarithms -/

/-- **C103**: `log_pdf(x)` is the logarithm of `pdf(x)` wherever the density is nonnegative; for the three distributions
with closed forms of the logarithm at every `x > 0`.  Missing: these at the other points (violated). -/
theorem C103_log_partial {E : Env} {d : Kind} {f g : ℝ → Except PyErr Flt} (hf : d.pdfNumber E = some f)
    (hg : d.logPdf E = some g) {x : ℝ} {v : EReal} (hx : f x = .ok (some v)) (hv : 0 ≤ v)
    (h : match d with
      | .chiSquare _ | .gamma _ _ | .logLogistic _ _ => 0 < x
      | _ => True) :
    ∃ l, g x = .ok l ∧ IsLog (some v) l := by
  have key : ∀ f g : ℝ → Except PyErr Flt, (g = fun x => (f x).map Flt.logF) → f x = .ok (some v) →
      ∃ l, g x = .ok l ∧ IsLog (some v) l := by
    rintro f g rfl h
    refine ⟨Flt.logF (some v), ?_, isLog_logF rfl hv⟩
    dsimp only
    rw [h]; rfl
  cases d with
  | uniform a b => cases hf
  | trapezoidal a b c e => cases hf
  | chiSquare df =>
    cases hf; cases hg
    refine ⟨_, rfl, ?_⟩
    have hx0 : 0 < x := h
    have hp : some v = Flt.real (exp (chiSquareLogPdf E.lg df x)) := by
      have : chiSquarePdf E.lg df x = some v := Except.ok.inj hx
      rw [← this, chiSquarePdf, if_neg hx0.not_gt, if_neg hx0.ne']
    rw [hp]
    have hl : Flt.log x = Flt.real (log x) := if_pos hx0
    rw [hl, Flt.mul_real, Flt.add_real, Flt.add_real]
    convert isLog_exp (chiSquareLogPdf E.lg df x) using 2
    unfold chiSquareLogPdf; ring
  | gamma k theta =>
    cases hf; cases hg
    refine ⟨_, rfl, ?_⟩
    have hx0 : 0 < x := h
    have hp : some v = Flt.real (exp (gammaLogPdf E.lg k theta x)) := by
      have : gammaPdf E.lg k theta x = some v := Except.ok.inj hx
      rw [← this, gammaPdf, if_neg hx0.not_gt, if_neg hx0.ne']
    rw [hp]
    have hl : Flt.log x = Flt.real (log x) := if_pos hx0
    rw [hl, Flt.mul_real, Flt.add_real, Flt.add_real]
    convert isLog_exp (gammaLogPdf E.lg k theta x) using 2
    unfold gammaLogPdf; ring
  | logLogistic k s =>
    cases hf; cases hg
    refine ⟨_, rfl, ?_⟩
    have hx0 : 0 < x := h
    have hl : Flt.log x = Flt.real (log x) := if_pos hx0
    obtain ⟨a, ha⟩ : ∃ a, logLogisticLogPdf k s x = Flt.real a := by
      unfold logLogisticLogPdf
      dsimp only
      rw [hl, Flt.mul_real, Flt.mul_real, Flt.add_real, Flt.add_real]
      have : logaddexp (k * log s) (Flt.real (k * log x)) = Flt.real (log (exp (k * log s) + exp (k * log x))) := by
        simp only [logaddexp, Flt.real, EReal.coe_ne_top, EReal.coe_ne_bot, if_false, EReal.toReal_coe]
      rw [this, Flt.mul_real, Flt.add_real]
      exact ⟨_, rfl⟩
    have hp : some v = Flt.real (exp a) := by
      have : logLogisticPdf k s x = some v := Except.ok.inj hx
      rw [← this, logLogisticPdf, if_pos hx0.le, ha, Flt.exp_real]
    rw [hp, ha]
    exact isLog_exp a
  | _ => exact key f g (by cases hf; cases hg; rfl) hx

/-- the hypotheses hold for instance for the normal distribution: the density is a positive number everywhere -/
example (E : Env) (x : ℝ) : ∃ f v, (Kind.normal 0 1).pdfNumber E = some f ∧ f x = .ok (some v) ∧ 0 ≤ v :=
  ⟨_, _, rfl, rfl, EReal.coe_nonneg.2 (by unfold normalPdf; positivity)⟩

/-- **C103 violated at 0 by the chi square distribution with 2 degrees of freedom**: `log_pdf(0)` is NaN, the density is
1/2; the prepared attribute `lpdf_at_0` is never used. -/
theorem C103_violated_chiSquare (E : Env) :
    (Kind.logPdf E (.chiSquare 2)).map (fun g => g 0) = some (.ok none) ∧
    (Kind.pdfNumber E (.chiSquare 2)).map (fun f => f 0) = some (.ok (Flt.real 0.5)) := by
  constructor
  · norm_num [Kind.logPdf, Flt.log, Flt.mul, Flt.real, Flt.add]
  · norm_num [Kind.pdfNumber, chiSquarePdf, chiSquareAt0]

/-- **C103 violated at 0 by the gamma distribution with shape 1**: `log_pdf(0)` is NaN, the density is `1/theta`. -/
theorem C103_violated_gamma (E : Env) :
    (Kind.logPdf E (.gamma 1 2)).map (fun g => g 0) = some (.ok none) ∧
    (Kind.pdfNumber E (.gamma 1 2)).map (fun f => f 0) = some (.ok (Flt.real (1 / 2))) := by
  constructor
  · norm_num [Kind.logPdf, Flt.log, Flt.mul, Flt.real, Flt.add]
  · norm_num [Kind.pdfNumber, gammaPdf, gammaAt0]

/-- **C103 violated at negative points**: the density of the log-logistic distribution at -1 is 0, the logarithm NaN
instead of `-inf`. -/
theorem C103_violated_negative (E : Env) :
    (Kind.logPdf E (.logLogistic 2 1)).map (fun g => g (-1)) = some (.ok none) ∧
    (Kind.pdfNumber E (.logLogistic 2 1)).map (fun f => f (-1)) = some (.ok (Flt.real 0)) := by
  constructor
  · norm_num [Kind.logPdf, logLogisticLogPdf, Flt.log, Flt.mul, Flt.real, Flt.add, logaddexp]
  · norm_num [Kind.pdfNumber, logLogisticPdf]

end Pacal.Standard
