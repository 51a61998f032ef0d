import Verif.Depend.LemWit

/-!
C79: the measures of dependence of a joint distribution.
-/

open MeasureTheory ProbabilityTheory Set

namespace Pacal.Depend

variable {Ω : Type*} [MeasurableSpace Ω] {P : Measure Ω} [IsProbabilityMeasure P]

/-- **C79**: `cov(i, j)` is the covariance of the variables `i` and `j`.  Proved for `i = j`, and for `i ≠ j` if the values of
the one with the larger number are in the range of the marginal number 1 (which is the case for the variables 0 and 1).  The
rest is false (`C79_violated_cov_range`). -/
theorem C79_cov_partial {o : Obj} {X : ℕ → Ω → ℝ} (h : Describes o P X) {i j : ℕ} (hi : i < o.ms.length) (hj : j < o.ms.length)
    {g : Var} (hg : o.ms[1]? = some g) (hp : i ≠ j → HasDensity (o.pair (min i j) (max i j)).pdf P (X (min i j)) (X (max i j)))
    (hr : i ≠ j → ∀ᵐ ω ∂P, g.lo ≤ X (max i j) ω ∧ X (max i j) ω ≤ g.hi) :
    cov o i j = .ok cov[X i, X j; P] := by
  have hlt : min i j < o.ms.length := (min_le_left _ _).trans_lt hi
  have hf : o.ms[min i j]? = some (o.ms[min i j]) := List.getElem?_eq_getElem hlt
  generalize o.ms[min i j] = f at hf
  have hX := memLp_of_range (h.density _ f hf).meas (h.range _ f hf)
  rw [cov, prepare_ok hi hj]
  simp only [Bind.bind, Except.bind, item_ok hf, item_ok hg]
  split_ifs with hij
  · congr 1
    subst hij
    rw [min_self] at hf hX
    rw [integral_one (h.density _ f hf) (F := fun x => (x - f.mean) ^ 2) (by fun_prop) (h.range _ f hf), h.mean _ f hf,
      covariance_self (h.density _ f hf).meas.aemeasurable, variance_eq_integral (h.density _ f hf).meas.aemeasurable]
  · congr 1
    have hY := memLp_of_range (hp hij).meas.2 (hr hij)
    rw [iter_eq (hp hij) (F := fun x y => (x - f.mean) * (y - g.mean)) (by fun_prop) (cov_integrable hX hY _ _)
      (h.range _ f hf) (hr hij), h.mean _ f hf, cov_shift hX hY]
    exact minmax_cases (p := fun U V => cov[U, V; P]) (fun U V => covariance_comm U V) X i j

/-- three variables on different intervals, of which the first and the third are dependent -/
example : ∃ (o : Obj) (X : ℕ → (ℝ × ℝ) × ℝ → ℝ), Describes o witLaw X ∧ o.ms.length = 3 ∧
    HasDensity (o.pair 0 2).pdf witLaw (X 0) (X 2) ∧ cov[X 0, X 2; witLaw] ≠ 0 :=
  ⟨wit, witVar, wit_describes, rfl, witVar_density, by rw [wit_cov]; norm_num⟩

/-- The second marginal is taken to be number 1 whatever `j` is, and the covariance is computed on its range: here the first
and the third variable have the covariance 1/36, and `cov(0, 2)` is 0. -/
theorem C79_violated_cov_range : ∃ (o : Obj) (X : ℕ → (ℝ × ℝ) × ℝ → ℝ), Describes o witLaw X ∧ o.ms.length = 3 ∧
    HasDensity (o.pair 0 2).pdf witLaw (X 0) (X 2) ∧ cov[X 0, X 2; witLaw] = 1 / 36 ∧ cov o 0 2 = .ok 0 := by
  refine ⟨wit, witVar, wit_describes, rfl, witVar_density, wit_cov, ?_⟩
  rw [cov, prepare_ok (by decide) (by decide)]
  simp only [Bind.bind, Except.bind, item_ok (l := wit.ms) (k := min 0 2) (v := witEntry 0) rfl,
    item_ok (l := wit.ms) (k := 1) (v := witEntry 1) rfl]
  rw [if_neg (by decide)]
  congr 1
  have e : ∀ y ∈ uIcc (witEntry 1).lo (witEntry 1).hi, (∫ x in (witEntry 0).lo..(witEntry 0).hi,
      (x - (witEntry 0).mean) * (y - (witEntry 1).mean) * (wit.pair (min 0 2) (max 0 2)).pdf x y) = 0 := by
    intro y hy
    have h1 : (witEntry 1).lo = 0 := by simp [witEntry]
    have h2 : (witEntry 1).hi = 1 := by simp [witEntry]
    rw [h1, h2, uIcc_of_le zero_le_one] at hy
    have hz : ∀ x, (wit.pair (min 0 2) (max 0 2)).pdf x y = 0 := fun x => if_neg fun h => by linarith [h.2.1, hy.2]
    simp only [hz, mul_zero, intervalIntegral.integral_zero]
  rw [integrateIter, intervalIntegral.integral_congr e, intervalIntegral.integral_zero]

/-- **C79**: `corrcoef(i, j)` is Pearson's coefficient of correlation.  Proved for the variables 0 and 1, in both orders; the
rest is false (`C79_violated_corrcoef_diagonal`, `C79_violated_corrcoef_third`). -/
theorem C79_corrcoef_partial {o : Obj} {X : ℕ → Ω → ℝ} (h : Describes o P X) (hl : 2 ≤ o.ms.length)
    (hp : HasDensity (o.pair 0 1).pdf P (X 0) (X 1)) :
    corrcoef o 0 1 = .ok (pearson P (X 0) (X 1)) ∧ corrcoef o 1 0 = .ok (pearson P (X 1) (X 0)) := by
  have h0 : 0 < o.ms.length := by omega
  have h1 : 1 < o.ms.length := by omega
  have hf : o.ms[0]? = some (o.ms[0]) := List.getElem?_eq_getElem h0
  have hg : o.ms[1]? = some (o.ms[1]) := List.getElem?_eq_getElem h1
  generalize o.ms[0] = f at hf
  generalize o.ms[1] = g at hg
  have c1 := C79_cov_partial h h0 h1 hg (fun _ => hp) (fun _ => h.range 1 g hg)
  have c2 := C79_cov_partial h h1 h0 hg (fun _ => hp) (fun _ => h.range 1 g hg)
  constructor
  · rw [corrcoef, prepare_ok h0 h1, c1]
    simp only [Bind.bind, Except.bind, item_ok (l := o.ms) (k := min 0 1) hf, item_ok hg]
    rw [h.std 0 f hf, h.std 1 g hg, pearson, div_div]
  · rw [corrcoef, prepare_ok h1 h0, c2]
    simp only [Bind.bind, Except.bind, item_ok (l := o.ms) (k := min 1 0) hf, item_ok hg]
    rw [h.std 0 f hf, h.std 1 g hg, pearson, div_div, mul_comm (Real.sqrt _)]

/-- `corrcoef(0, 0)`, which should be 1, is the ratio of the first and the second standard deviation. -/
theorem C79_violated_corrcoef_diagonal {o : Obj} {X : ℕ → Ω → ℝ} (h : Describes o P X) (hl : 2 ≤ o.ms.length) (h0 : Var[X 0; P] ≠ 0)
    (h1 : Var[X 1; P] ≠ 0) (hne : Var[X 0; P] ≠ Var[X 1; P]) :
    corrcoef o 0 0 = .ok (Real.sqrt Var[X 0; P] / Real.sqrt Var[X 1; P]) ∧
      Real.sqrt Var[X 0; P] / Real.sqrt Var[X 1; P] ≠ 1 ∧ pearson P (X 0) (X 0) = 1 := by
  have l0 : 0 < o.ms.length := by omega
  have l1 : 1 < o.ms.length := by omega
  have hf : o.ms[0]? = some (o.ms[0]) := List.getElem?_eq_getElem l0
  have hg : o.ms[1]? = some (o.ms[1]) := List.getElem?_eq_getElem l1
  generalize o.ms[0] = f at hf
  generalize o.ms[1] = g at hg
  have c1 := C79_cov_partial h l0 l0 hg (fun h => absurd rfl h) (fun h => absurd rfl h)
  have m0 := (h.density 0 f hf).meas.aemeasurable (μ := P)
  have p0 : 0 < Real.sqrt Var[X 0; P] := Real.sqrt_pos.2 ((variance_nonneg _ _).lt_of_ne' h0)
  have p1 : 0 < Real.sqrt Var[X 1; P] := Real.sqrt_pos.2 ((variance_nonneg _ _).lt_of_ne' h1)
  refine ⟨?_, fun he => hne ?_, ?_⟩
  · rw [corrcoef, prepare_ok l0 l0, c1]
    simp only [Bind.bind, Except.bind, item_ok (l := o.ms) (k := min 0 0) hf, item_ok hg]
    rw [h.std 0 f hf, h.std 1 g hg, covariance_self m0]
    congr 2
    rw [div_eq_iff p0.ne', Real.mul_self_sqrt (variance_nonneg _ _)]
  · rw [div_eq_one_iff_eq p1.ne'] at he
    exact (Real.sqrt_inj (variance_nonneg _ _) (variance_nonneg _ _)).1 he
  · rw [pearson, covariance_self m0, Real.mul_self_sqrt (variance_nonneg _ _), div_self h0]

/-- two independent variables with different variances, with the densities 1 and 2x on the unit interval -/
example : ∃ (o : Obj) (X : ℕ → ℝ × ℝ → ℝ), Describes o rampLaw X ∧ o.ms.length = 2 ∧ Var[X 0; rampLaw] = 1 / 12 ∧
    Var[X 1; rampLaw] = 1 / 18 :=
  ⟨rampObj, rampVar, ramp_describes, rfl, ramp_var.1, ramp_var.2⟩

/-- `corrcoef(0, 2)` divides by the standard deviation of the second variable instead of the third. -/
theorem C79_violated_corrcoef_third {o : Obj} {X : ℕ → Ω → ℝ} (h : Describes o P X) (hl : 3 ≤ o.ms.length)
    (hp : HasDensity (o.pair 0 2).pdf P (X 0) (X 2)) (hr : ∀ g, o.ms[1]? = some g → ∀ᵐ ω ∂P, g.lo ≤ X 2 ω ∧ X 2 ω ≤ g.hi) :
    corrcoef o 0 2 = .ok (cov[X 0, X 2; P] / Real.sqrt Var[X 0; P] / Real.sqrt Var[X 1; P]) := by
  have l0 : 0 < o.ms.length := by omega
  have l1 : 1 < o.ms.length := by omega
  have l2 : 2 < o.ms.length := by omega
  have hf : o.ms[0]? = some (o.ms[0]) := List.getElem?_eq_getElem l0
  have hg : o.ms[1]? = some (o.ms[1]) := List.getElem?_eq_getElem l1
  generalize o.ms[0] = f at hf
  generalize o.ms[1] = g at hg
  have c1 := C79_cov_partial h l0 l2 hg (fun _ => hp) (fun _ => hr g hg)
  rw [corrcoef, prepare_ok l0 l2, c1]
  simp only [Bind.bind, Except.bind, item_ok (l := o.ms) (k := min 0 2) hf, item_ok hg]
  rw [h.std 0 f hf, h.std 1 g hg]

/-- **C79**: `rho_s(i, j)` is Spearman's rho of the variables, if they are continuous and the copula returned for them is their
copula. -/
theorem C79_spearman {o : Obj} {X : ℕ → Ω → ℝ} {i j : ℕ} (hi : i < o.ms.length) (hj : j < o.ms.length) {C : ℝ → ℝ → ℝ}
    (hC : i ≠ j → (o.pair (min i j) (max i j)).ccdf = .ok C) (h : Joins C P (X (min i j)) (X (max i j))) :
    rhoS o i j = .ok (spearman P (X i) (X j)) := by
  rw [rhoS, prepare_ok hi hj]
  simp only [Bind.bind, Except.bind]
  split_ifs with hij
  · subst hij
    rw [min_self] at h
    rw [spearman_self h.meas.1 h.cont.1]
  · rw [hC hij]
    dsimp only
    rw [spearman_eq h]
    congr 1
    exact minmax_cases (p := spearman P) (fun U V => pearson_comm _ _ _) X i j

/-- **C79**: `ctau(i, j)`, with which `tau()` fills its matrix, is Kendall's tau of the variables, if they are continuous, the copula
returned for them is their copula, and it has a density. -/
theorem C79_kendall {o : Obj} {X : ℕ → Ω → ℝ} {i j : ℕ} (hi : i < o.ms.length) (hj : j < o.ms.length) {C k : ℝ → ℝ → ℝ}
    (hC : i ≠ j → (o.pair (min i j) (max i j)).ccdf = .ok C) (hk : i ≠ j → (o.pair (min i j) (max i j)).cpdf = .ok k)
    (h : Joins C P (X (min i j)) (X (max i j)))
    (hd : i ≠ j → HasDensity (onSquare k) P (rank P (X (min i j))) (rank P (X (max i j)))) :
    ctau o i j = .ok (kendall P (X i) (X j)) := by
  rw [ctau, prepare_ok hi hj]
  simp only [Bind.bind, Except.bind]
  split_ifs with hij
  · subst hij
    rw [min_self] at h
    rw [kendall_self h.meas.1 h.cont.1]
  · rw [hC hij, hk hij]
    dsimp only
    rw [ctau_eq h (hd hij)]
    congr 1
    exact minmax_cases (p := kendall P) (kendall_comm P) X i j

/-- independent uniform variables meet the hypotheses of the last two theorems, with the formulas of the independence copula -/
example : ∃ (Q : Measure (ℝ × ℝ)) (_ : IsProbabilityMeasure Q), Joins (fun u v => Copula.piCcdf [u, v]) Q Prod.fst Prod.snd ∧
    HasDensity (onSquare fun u v => Copula.piCpdf [u, v]) Q (rank Q Prod.fst) (rank Q Prod.snd) := by
  have : IsProbabilityMeasure (volume.restrict (Icc (0 : ℝ) 1)) := ⟨by simp⟩
  have c1 : Continuous (cdf (((volume.restrict (Icc (0 : ℝ) 1)).prod (volume.restrict (Icc (0 : ℝ) 1))).map Prod.fst)) := by
    rw [Measure.map_fst_prod, measure_univ, one_smul]; exact uniform_cdf_continuous
  have c2 : Continuous (cdf (((volume.restrict (Icc (0 : ℝ) 1)).prod (volume.restrict (Icc (0 : ℝ) 1))).map Prod.snd)) := by
    rw [Measure.map_snd_prod, measure_univ, one_smul]; exact uniform_cdf_continuous
  have hi : IndepFun Prod.fst Prod.snd ((volume.restrict (Icc (0 : ℝ) 1)).prod (volume.restrict (Icc (0 : ℝ) 1))) := by
    rw [indepFun_iff_map_prod_eq_prod_map_map measurable_fst.aemeasurable measurable_snd.aemeasurable]
    simp [Measure.map_id']
  exact ⟨_, inferInstance, joins_indep measurable_fst measurable_snd c1 c2 hi,
    density_indep measurable_fst measurable_snd c1 c2 hi⟩

/-- **C79**: `tau(i, j)` is Kendall's tau of the variables.  Proved if the values of the one with the larger number are in the range
of the marginal number 1, as for `cov`. -/
theorem C79_tau_partial {o : Obj} {X : ℕ → Ω → ℝ} (h : Describes o P X) {i j : ℕ} (hi : i < o.ms.length) (hj : j < o.ms.length)
    (hij : i ≠ j) {g : Var} (hg : o.ms[1]? = some g)
    (hp : HasDensity (o.pair (min i j) (max i j)).pdf P (X (min i j)) (X (max i j))) {H : ℝ → ℝ → ℝ}
    (hH : (o.pair (min i j) (max i j)).cdf = .ok H) (hd : ∀ x y, H x y = P.real {ω | X (min i j) ω ≤ x ∧ X (max i j) ω ≤ y})
    (hr : ∀ᵐ ω ∂P, g.lo ≤ X (max i j) ω ∧ X (max i j) ω ≤ g.hi) :
    tau o i j = .ok (kendall P (X i) (X j)) := by
  have hlt : min i j < o.ms.length := (min_le_left _ _).trans_lt hi
  have hf : o.ms[min i j]? = some (o.ms[min i j]) := List.getElem?_eq_getElem hlt
  generalize o.ms[min i j] = f at hf
  rw [tau, prepare_ok hi hj]
  simp only [Bind.bind, Except.bind, item_ok hf, item_ok hg]
  rw [if_neg hij, hH]
  dsimp only
  rw [kendall_density hp hd (h.range _ f hf) hr]
  congr 1
  exact minmax_cases (p := kendall P) (kendall_comm P) X i j

/-- The values for two variables with the independence copula are 0, and those of the lower bound of Fréchet are -1. -/
theorem C79_values {o : Obj} {i j : ℕ} (hi : i < o.ms.length) (hj : j < o.ms.length) (hij : i ≠ j) :
    ((o.pair (min i j) (max i j)).ccdf = .ok (fun u v => Copula.piCcdf [u, v]) →
      (o.pair (min i j) (max i j)).cpdf = .ok (fun u v => Copula.piCpdf [u, v]) → rhoS o i j = .ok 0 ∧ ctau o i j = .ok 0) ∧
    ((o.pair (min i j) (max i j)).ccdf = .ok (fun u v => Copula.wCcdf [u, v]) →
      (o.pair (min i j) (max i j)).cpdf = .ok (fun u v => Copula.wCpdf [u, v]) → rhoS o i j = .ok (-1) ∧ ctau o i j = .ok (-1)) := by
  have hw : integrateIter (fun x y => Copula.wCcdf [x, y] * Copula.wCpdf [x, y]) 0 1 0 1 = 0 := by
    simp only [Copula.wCpdf, mul_zero, integrateIter, intervalIntegral.integral_zero]
  refine ⟨fun h1 h2 => ⟨?_, ?_⟩, fun h1 h2 => ⟨?_, ?_⟩⟩
  · rw [rhoS, prepare_ok hi hj]
    simp only [Bind.bind, Except.bind, h1]
    rw [if_neg hij, int_pi]
    norm_num
  · rw [ctau, prepare_ok hi hj]
    simp only [Bind.bind, Except.bind, h1, h2]
    rw [if_neg hij, int_pi_pdf]
    norm_num
  · rw [rhoS, prepare_ok hi hj]
    simp only [Bind.bind, Except.bind, h1]
    rw [if_neg hij, int_w]
    norm_num
  · rw [ctau, prepare_ok hi hj]
    simp only [Bind.bind, Except.bind, h1, h2]
    rw [if_neg hij, hw]
    norm_num

/-- For the upper bound of Fréchet, `rho_s` and `ctau` raise `IndexError`.  With the formula of its density, which is 0, `ctau` would be
-1, although the variables which it joins are equal and have Kendall's tau 1. -/
theorem C79_violated_minimum {o : Obj} {i j : ℕ} (hi : i < o.ms.length) (hj : j < o.ms.length) (hij : i ≠ j) :
    ((o.pair (min i j) (max i j)).ccdf = minCcdf → rhoS o i j = .error .index ∧ ctau o i j = .error .index) ∧
    ((o.pair (min i j) (max i j)).ccdf = .ok (fun u v => Copula.mCcdf [u, v]) →
      (o.pair (min i j) (max i j)).cpdf = .ok (fun u v => Copula.mCpdf [u, v]) → rhoS o i j = .ok 1 ∧ ctau o i j = .ok (-1)) ∧
    ∀ X : Ω → ℝ, Measurable X → Continuous (cdf (P.map X)) → Joins (fun u v => Copula.mCcdf [u, v]) P X X ∧
      spearman P X X = 1 ∧ kendall P X X = 1 := by
  refine ⟨fun h => ⟨?_, ?_⟩, fun h1 h2 => ⟨?_, ?_⟩, fun X hX hc => ⟨joins_min hX hc, spearman_self hX hc, kendall_self hX hc⟩⟩
  · rw [rhoS, prepare_ok hi hj]
    simp only [Bind.bind, Except.bind, h, minCcdf]
    rw [if_neg hij]
  · rw [ctau, prepare_ok hi hj]
    simp only [Bind.bind, Except.bind, h, minCcdf]
    rw [if_neg hij]
  · rw [rhoS, prepare_ok hi hj]
    simp only [Bind.bind, Except.bind, h1]
    rw [if_neg hij, int_m]
  · have hz : integrateIter (fun x y => Copula.mCcdf [x, y] * Copula.mCpdf [x, y]) 0 1 0 1 = 0 := by
      simp only [Copula.mCpdf, mul_zero, integrateIter, intervalIntegral.integral_zero]
    rw [ctau, prepare_ok hi hj]
    simp only [Bind.bind, Except.bind, h1, h2]
    rw [if_neg hij, hz]
    norm_num

/-- `NDDistr.cov` subtracts no means, and its diagonal is 1: for `i ≠ j` it returns the mean of the product (where the range is
right). -/
theorem C79_violated_nd_cov {o : Obj} {X : ℕ → Ω → ℝ} (h : Describes o P X) {i j : ℕ} (hi : i < o.ms.length) (hj : j < o.ms.length)
    {g : Var} (hg : o.ms[1]? = some g) (hp : HasDensity (o.pair (min i j) (max i j)).pdf P (X (min i j)) (X (max i j)))
    (hr : ∀ᵐ ω ∂P, g.lo ≤ X (max i j) ω ∧ X (max i j) ω ≤ g.hi) :
    ndCov o i i = .ok 1 ∧
      (i ≠ j → ndCov o i j = .ok (cov[X i, X j; P] + (∫ ω, X i ω ∂P) * ∫ ω, X j ω ∂P)) := by
  have hlt : min i j < o.ms.length := (min_le_left _ _).trans_lt hi
  have hf : o.ms[min i j]? = some (o.ms[min i j]) := List.getElem?_eq_getElem hlt
  have hf' : o.ms[min i i]? = some (o.ms[min i i]'(by simpa using hi)) := List.getElem?_eq_getElem _
  generalize o.ms[min i j] = f at hf
  have hX := memLp_of_range (h.density _ f hf).meas (h.range _ f hf)
  have hY := memLp_of_range hp.meas.2 hr
  refine ⟨?_, fun hij => ?_⟩
  · rw [ndCov, prepare_ok hi hi]
    simp only [Bind.bind, Except.bind, item_ok hf', item_ok hg, if_true]
  · rw [ndCov, prepare_ok hi hj]
    simp only [Bind.bind, Except.bind, item_ok hf, item_ok hg]
    rw [if_neg hij, iter_eq hp (F := fun x y => (x - 0) * (y - 0)) (by fun_prop) (cov_integrable hX hY _ _)
      (h.range _ f hf) hr]
    congr 1
    rw [← minmax_cases (p := fun U V => cov[U, V; P] + (∫ ω, U ω ∂P) * ∫ ω, V ω ∂P)
      (fun U V => by rw [covariance_comm, mul_comm]) X i j, covariance_eq_sub hX hY]
    simp only [sub_zero, Pi.mul_apply]
    ring

/-- The calls without arguments return the matrix of the values for all pairs. -/
theorem C79_matrix {d : ℕ} {f : ℕ → ℕ → Except DErr ℝ} {m : ℕ → ℕ → ℝ} (h : ∀ i < d, ∀ j < d, f i j = .ok (m i j)) :
    table d f = .ok ((List.range d).map fun i => (List.range d).map fun j => m i j) := by
  have key : ∀ {α : Type} {g : ℕ → Except DErr α} {v : ℕ → α} (l : List ℕ), (∀ i ∈ l, g i = .ok (v i)) → l.mapM g = .ok (l.map v) := by
    intro α g v l hl
    induction l with
    | nil => rfl
    | cons a l ih =>
      rw [List.mapM_cons, hl a (List.mem_cons_self ..), ih fun i hi => hl i (List.mem_cons_of_mem _ hi)]
      rfl
  refine key _ fun i hi => key _ fun j hj => h i (List.mem_range.1 hi) j (List.mem_range.1 hj)

/-- `tau()` without arguments is the matrix of Kendall's tau of all pairs. -/
theorem C79_tau_matrix {o : Obj} {X : ℕ → Ω → ℝ} {C k : ℕ → ℕ → ℝ → ℝ → ℝ}
    (hC : ∀ i j, i < j → j < o.ms.length → (o.pair i j).ccdf = .ok (C i j) ∧ (o.pair i j).cpdf = .ok (k i j) ∧
      HasDensity (onSquare (k i j)) P (rank P (X i)) (rank P (X j)))
    (h : ∀ i j, i ≤ j → j < o.ms.length → Joins (C i j) P (X i) (X j)) :
    tauAll o = .ok ((List.range o.ms.length).map fun i => (List.range o.ms.length).map fun j => kendall P (X i) (X j)) :=
  C79_matrix fun i hi j hj => C79_kendall (C := C (min i j) (max i j)) (k := k (min i j) (max i j)) hi hj
    (fun hij => (hC _ _ (min_lt_max.2 hij) (max_lt hi hj)).1) (fun hij => (hC _ _ (min_lt_max.2 hij) (max_lt hi hj)).2.1)
    (h _ _ min_le_max (max_lt hi hj)) fun hij => (hC _ _ (min_lt_max.2 hij) (max_lt hi hj)).2.2

/-- Wrong numbers raise `RuntimeError`. -/
theorem C79_reject (o : Obj) {i j : ℕ} (h : ¬(i < o.ms.length ∧ j < o.ms.length)) :
    cov o i j = .error .runtime ∧ corrcoef o i j = .error .runtime ∧ tau o i j = .error .runtime ∧
      rhoS o i j = .error .runtime ∧ ctau o i j = .error .runtime ∧ ndCov o i j = .error .runtime := by
  have hp : prepare o i j = .error .runtime := by
    rw [prepare]
    by_cases h1 : i < o.ms.length
    · rw [if_neg (not_not.2 h1), if_pos fun h2 => h ⟨h1, h2⟩]
    · rw [if_pos h1]
  simp [cov, corrcoef, tau, rhoS, ctau, ndCov, hp, Bind.bind, Except.bind]

end Pacal.Depend
