import Verif.Sampler.LemB
import Verif.Sampler.LemReject
import Verif.Standard.PropsA
import Verif.Standard.PropsB
import Verif.Standard.PropsC
import Verif.Standard.PropsD
import Verif.Standard.LemRange
import Verif.Cond.Props

/-!
# Property C67 (direct samplers follow the distribution's own law)

`sample G k` is what `rand_raw` does for the standard distribution `k` (`Sampler/Model.lean`), `G` the laws of numpy's
generators, `Documented G` that they are the laws of numpy's documentation (`Sampler/Spec.lean`).  `k.build E` is the
piecewise density of the same object (property C46).  The claim: one sampled value has the law of the density.

For the rejection sampler of `X | Gt(L)` the draws are a sequence of independent variables `X 0, X 1, …` on any probability
space; `event X L [A₁, …, Aₙ]` is the event that `rand_raw(n)` returns, with an array whose entries lie in `A₁, …, Aₙ`.
-/

namespace Pacal.Sampler
open MeasureTheory ProbabilityTheory Real Standard Set

/-- the distributions whose sampler draws from the inverse of the distribution function (property C60) -/
def Inverse : Kind → Prop
  | .trapezoidal _ _ _ _ => True
  | .mollifier _ => True
  | _ => False

/-- **C67**: the samplers of the standard distributions (normal, uniform, Cauchy, chi-square, exponential, gamma, beta, Pareto,
Lévy, Laplace, Student t, semicircle, F, Weibull, Fréchet, log-logistic) draw from the law of the density of the same object,
for all parameters.  Missing: the trapezoidal and the mollifier distribution, which call `rand_invcdf` (C60), the Gumbel
distribution (below), and chi-square with less than one degree of freedom (below). -/
theorem C67_direct_partial {G : Rng} (hG : Documented G) (E : Env) (he : 0 ≤ E.eps)
    (hlg : ∀ x, 0 < x → E.lg x = log (Gamma x)) (k : Kind) (hk : k.Valid) (hi : ¬ Inverse k) (hgu : ∀ mu s, k ≠ .gumbel mu s) :
    ∃ μ l, sample G k = .draw μ ∧ k.build E = some l ∧ PF.law l = μ := by
  have key : ∀ {r : Option (PF ℝ)} {μ ν : Measure ℝ}, Rep E.eps r μ → ν = μ →
      ∃ μ' l, Outcome.draw ν = .draw μ' ∧ r = some l ∧ PF.law l = μ' := by
    rintro r μ ν ⟨l, h1, _, _, h4⟩ rfl
    exact ⟨_, l, rfl, h1, h4⟩
  have hu := hG.uniform 0 1 one_pos
  rw [uniform01] at hu
  match k, hk with
  | .normal mu sigma, hs => exact key (C46_normal he mu hs).1 (hG.normal mu sigma hs)
  | .uniform a b, hab =>
    refine key (C46_uniform he hab) ?_
    rw [hG.uniform a b hab, ProbabilityTheory.cond, ProbabilityTheory.cond, Real.volume_Ico, Real.volume_Icc,
      Measure.restrict_congr_set Ico_ae_eq_Icc]
  | .cauchy g c, hg =>
    refine key (C46_cauchy he c hg).1 ?_
    rw [hG.normal 0 1 one_pos, cauchy_law hg c]
  | .chiSquare df, hdf => exact key (C46_chiSquare he hlg hdf).1 (hG.chisquare df (lt_of_lt_of_le one_pos hdf))
  | .exponential lmbda, hl =>
    refine key (C46_exponential he hl).1 ?_
    rw [hG.exponential _ (one_div_pos.2 hl), one_div_one_div]
  | .gamma k theta, h => exact key (C46_gamma he hlg h.1 h.2).1 (hG.gamma k theta h.1 h.2)
  | .beta a b, h => exact key (C46_beta he E.mpe hlg h.1 h.2).1 (hG.beta a b h.1 h.2)
  | .pareto alpha xmin, h =>
    refine key (C46_pareto he h.1 h.2).1 ?_
    rw [hG.pareto alpha h.1, pareto_law h.1 h.2]
  | .levy c xmin, hc =>
    refine key (C46_levy he hc xmin).1.1 ?_
    rw [hG.normal 0 (levySigma c) (one_div_pos.2 (sqrt_pos.2 hc)), levy_law hc xmin]
  | .laplace lmbda mu, hl => exact key (C46_laplace he hl mu).1.1 (hG.laplace mu lmbda hl)
  | .studentT df, hdf => exact key (C46_studentT he hlg hdf).1.1 (hG.standardT df hdf)
  | .semicircle R, hR =>
    refine key (C46_semicircle_partial he hR).1.1 ?_
    rw [hu, semicircle_law hR]
  | .fDistr d1 d2, h => exact key (C46_fDistr he hlg h.1 h.2).1.1 (hG.f d1 d2 h.1 h.2)
  | .weibull k lmbda, h =>
    refine key (C46_weibull he h.1 h.2).1.1 ?_
    rw [hG.weibull k h.1, weibull_law h.2]
  | .gumbel mu sigma, _ => exact absurd rfl (hgu mu sigma)
  | .frechet alpha s m, h =>
    refine key (C46_frechet he h.1 h.2 m).1.1 ?_
    rw [hu, frechet_law h.1 h.2 m]
  | .logLogistic k s, h =>
    refine key (C46_logLogistic he h.1 h.2).1.1 ?_
    rw [hu, logLogistic_law h.1 h.2]
  | .trapezoidal _ _ _ _, _ => exact absurd trivial hi
  | .mollifier _, _ => exact absurd trivial hi

/-- The other two samplers call `rand_invcdf`. -/
theorem C67_inverse (G : Rng) (k : Kind) : sample G k = .invcdf ↔ Inverse k := by
  cases k <;> simp [sample, Inverse]

/-- generators with the documented laws -/
noncomputable def documentedRng : Rng where
  normal loc scale := gaussianReal loc (scale ^ 2).toNNReal
  uniform low high := ProbabilityTheory.cond volume (Set.Ico low high)
  chisquare df := gammaMeasure (df / 2) (1 / 2)
  exponential scale := expMeasure (1 / scale)
  gamma shape scale := gammaMeasure shape (1 / scale)
  beta a b := betaMeasure a b
  pareto a := Textbook.law (lomax a)
  laplace loc scale := Textbook.law (Textbook.laplace scale loc)
  standardT df := Textbook.law (Textbook.studentT df)
  weibull a := Textbook.law (Textbook.weibull a 1)
  gumbel loc scale := Textbook.law (Textbook.gumbel loc scale)
  f dfnum dfden := Textbook.law (Textbook.fisher dfnum dfden)

theorem documentedRng_documented : Documented documentedRng :=
  ⟨fun _ _ _ => rfl, fun _ _ _ => rfl, fun _ _ => rfl, fun _ _ => rfl, fun _ _ _ _ => rfl, fun _ _ _ _ => rfl, fun _ _ => rfl,
    fun _ _ _ => rfl, fun _ _ => rfl, fun _ _ => rfl, fun _ _ _ => rfl, fun _ _ _ _ => rfl⟩

example : ∃ μ l, sample documentedRng (.semicircle 2) = .draw μ ∧ (Kind.semicircle 2).build exactEnv = some l ∧ PF.law l = μ :=
  C67_direct_partial documentedRng_documented exactEnv (by norm_num [exactEnv]) (fun _ _ => rfl) _ (show (0 : ℝ) < 2 by norm_num)
    id (fun _ _ => by simp)

/-- The sampler of `GumbelDistr(mu, sigma)` draws from the Gumbel law; the density of the object is its restriction to the
points where the double exponential does not overflow, which misses the probability `exp(-exp(M))`. -/
theorem C67_gumbel_partial {G : Rng} (hG : Documented G) (E : Env) (he : 0 ≤ E.eps) (mu : ℝ) {sigma : ℝ} (hs : 0 < sigma) :
    ∃ μ l, sample G (.gumbel mu sigma) = .draw μ ∧ (Kind.gumbel mu sigma).build E = some l ∧ IsProbabilityMeasure μ ∧
      PF.law l = μ.restrict (Ici (mu - sigma * E.M)) ∧ μ (Ici (mu - sigma * E.M))ᶜ = ENNReal.ofReal (exp (-exp E.M)) := by
  obtain ⟨⟨l, h1, _, _, h4⟩, h5, h6, _⟩ := C46_gumbel_partial he E.M mu hs
  exact ⟨Textbook.law (Textbook.gumbel mu sigma), l, congrArg Outcome.draw (hG.gumbel mu sigma hs), h1, h5, h4, h6⟩

example : ∃ μ l, sample documentedRng (.gumbel 0 1) = .draw μ ∧ (Kind.gumbel 0 1).build exactEnv = some l ∧
    PF.law l = μ.restrict (Ici (0 - 1 * 709.78)) :=
  let ⟨μ, l, h1, h2, _, h3, _⟩ := C67_gumbel_partial documentedRng_documented exactEnv (by norm_num [exactEnv]) 0 one_pos
  ⟨μ, l, h1, h2, h3⟩

/-- `ChiSquareDistr(df)` with `0 < df < 1` can be sampled although its density cannot be built: the constructor accepts the
parameter, `rand` draws from the chi-square law and every other operation fails. -/
theorem C67_violated_chiSquare_small_df {G : Rng} (hG : Documented G) (E : Env) {df : ℝ} (h0 : 0 < df) (h1 : df < 1) :
    sample G (.chiSquare df) = .draw (gammaMeasure (df / 2) (1 / 2)) ∧ (Kind.chiSquare df).build E = none :=
  ⟨congrArg Outcome.draw (hG.chisquare df h0), C46_violated_chiSquare_small_df E.eps E.lg h0 h1⟩

example : (Kind.chiSquare (1 / 2)).build exactEnv = none :=
  (C67_violated_chiSquare_small_df documentedRng_documented exactEnv (by norm_num) (by norm_num)).2

/-! ### The rejection sampler -/

variable {Ω : Type*} [MeasurableSpace Ω] {P : Measure Ω} [IsProbabilityMeasure P] {X : ℕ → Ω → ℝ} {μ : Measure ℝ}

/-- **C67, `(X | Gt(L)).rand(n)`, the array**: whatever the draws are, a returned array has exactly `n` entries; they are the
first `n` draws above `L`, in their order. -/
theorem C67_reject_result (L : ℝ) (n : ℕ) (bs : List (List ℝ)) (r : List ℝ) :
    reject L n bs = some r ↔ ∃ rest, bs.flatten.filter (fun v => decide (L < v)) = r ++ rest ∧ r.length = n := by
  rw [reject_eq]
  show (if n ≤ (accepted L bs.flatten).length then _ else _) = _ ↔ ∃ rest, accepted L bs.flatten = _ ∧ _
  constructor
  · intro h
    split_ifs at h with hn
    rw [Option.some.injEq] at h
    subst h
    exact ⟨(accepted L bs.flatten).drop n, (List.take_append_drop _ _).symm, List.length_take_of_le hn⟩
  · rintro ⟨rest, h, rfl⟩
    rw [h, if_pos (by simp), List.take_left]

example : reject 0 2 [[-1, 3], [2, 5]] = some [3, 2] := by
  rw [C67_reject_result]
  exact ⟨[5], by norm_num, rfl⟩

/-- **C67, `(X | Gt(L)).rand(n)`, the law**: with independent draws of law `μ` and `P(X > L) > 0`, the loop ends with
probability 1 and the entries of the array are independent with the conditional law of `X` given `X > L`. -/
theorem C67_reject_law (hX : ∀ i, Measurable (X i)) (hi : iIndepFun X P) (hμ : ∀ i, P.map (X i) = μ) {L : ℝ}
    (hp : μ (Ioi L) ≠ 0) (As : List (Set ℝ)) (hA : ∀ A ∈ As, MeasurableSet A) :
    P (event X L As) = (As.map fun A => ProbabilityTheory.cond μ (Ioi L) A).prod := by
  have : IsProbabilityMeasure μ := by
    rw [← hμ 0]; exact Measure.isProbabilityMeasure_map (hX 0).aemeasurable
  rw [measure_event hX hi hμ L As hA, iSup_hitP hp As hA]

/-- It ends with probability 1. -/
theorem C67_reject_terminates (hX : ∀ i, Measurable (X i)) (hi : iIndepFun X P) (hμ : ∀ i, P.map (X i) = μ) {L : ℝ}
    (hp : μ (Ioi L) ≠ 0) (n : ℕ) : P {ω | ∃ m r, reject L n (batches X n m ω) = some r} = 1 := by
  have : IsProbabilityMeasure μ := by
    rw [← hμ 0]; exact Measure.isProbabilityMeasure_map (hX 0).aemeasurable
  have : IsProbabilityMeasure (ProbabilityTheory.cond μ (Ioi L)) := ProbabilityTheory.cond_isProbabilityMeasure hp
  have h := C67_reject_law hX hi hμ hp (List.replicate n univ) (fun A hA => by
    rw [List.eq_of_mem_replicate hA]; exact MeasurableSet.univ)
  simp only [List.map_replicate, measure_univ, List.prod_replicate, one_pow] at h
  refine le_antisymm prob_le_one (h.symm.le.trans (measure_mono ?_))
  rintro ω ⟨m, r, hr, _⟩
  rw [List.length_replicate] at hr
  exact ⟨m, r, hr⟩

/-- If `P(X > L) = 0` the loop of `rand_raw` never ends (almost surely), for every `n > 0`. -/
theorem C67_reject_diverges (hX : ∀ i, Measurable (X i)) (hi : iIndepFun X P) (hμ : ∀ i, P.map (X i) = μ) {L : ℝ}
    (hp : μ (Ioi L) = 0) {n : ℕ} (hn : 0 < n) : P {ω | ∃ m r, reject L n (batches X n m ω) = some r} = 0 := by
  have : IsProbabilityMeasure μ := by
    rw [← hμ 0]; exact Measure.isProbabilityMeasure_map (hX 0).aemeasurable
  obtain ⟨k, rfl⟩ := Nat.exists_eq_succ_of_ne_zero hn.ne'
  have hm : ∀ A ∈ (univ : Set ℝ) :: List.replicate k univ, MeasurableSet A := fun A hA => by
    rw [← List.replicate_succ] at hA
    rw [List.eq_of_mem_replicate hA]; exact MeasurableSet.univ
  have h := measure_event hX hi hμ L _ hm
  simp only [iSup_hitP_zero hp _ _ hm, ciSup_const] at h
  refine measure_mono_null ?_ h
  rintro ω ⟨m, r, hr⟩
  have e : ((univ : Set ℝ) :: List.replicate k univ).length = k + 1 := by simp
  have hl : r.length = k + 1 := by
    obtain ⟨_, _, h⟩ := (C67_reject_result _ _ _ _).1 hr
    exact h
  refine ⟨m, r, by rw [e]; exact hr, ?_⟩
  rw [← List.replicate_succ, List.forall₂_iff_get]
  refine ⟨by simp [hl], fun i h1 h2 => ?_⟩
  simp

/-- **C67, `X | Gt(L)`**: the sampled values have the law of the density computed for the same object (C24). -/
theorem C67_reject_density_partial {Q : Conv.Par} {f : PF ℝ} {L : ℝ} (h : Cond.Args Q f {L}) (hQ : ExactQ Q.q Q.qp)
    (hL : PF.law f (Ioi L) ≠ 0) (pole : ℝ → ℝ → Pole) (hX : ∀ i, Measurable (X i)) (hi : iIndepFun X P)
    (hf : ∀ i, P.map (X i) = PF.law f) :
    ∃ r, Cond.condGt Q pole f L = some r ∧ ∀ As : List (Set ℝ), (∀ A ∈ As, MeasurableSet A) →
      P (event X L As) = (As.map fun A => PF.law r A).prod := by
  obtain ⟨r, h1, _, _, h4⟩ := Cond.C24_gt_partial h hQ hL pole
  refine ⟨r, h1, fun As hA => ?_⟩
  rw [h4]
  exact C67_reject_law hX hi hf hL As hA

example (pole : ℝ → ℝ → Pole) : ∃ r, Cond.condGt Conv.exPar pole Conv.halfAtom 0 = some r ∧
    ∀ As : List (Set ℝ), (∀ A ∈ As, MeasurableSet A) →
      Measure.infinitePi (fun _ : ℕ => PF.law Conv.halfAtom) (event (fun i ω => ω i) 0 As) = (As.map fun A => PF.law r A).prod := by
  have h := Cond.halfAtom_cond (T := {0}) (by rintro c rfl; exact ⟨0, by norm_num, by norm_num⟩)
  have := h.instProb
  exact C67_reject_density_partial h Conv.exPar_exact
    (Cond.halfAtom_pos measurableSet_Ioi le_rfl one_pos le_rfl Ioo_subset_Ioi_self) pole (fun i => measurable_pi_apply i)
    (iIndepFun_infinitePi (X := fun _ => id) fun _ => measurable_id) (fun i => Measure.infinitePi_map_eval _ i)

/-- independent draws exist: the coordinates of an infinite product -/
example (μ : Measure ℝ) [IsProbabilityMeasure μ] {L : ℝ} (hp : μ (Ioi L) ≠ 0) {A B : Set ℝ} (hA : MeasurableSet A)
    (hB : MeasurableSet B) : Measure.infinitePi (fun _ : ℕ => μ) (event (fun i ω => ω i) L [A, B]) =
      ProbabilityTheory.cond μ (Ioi L) A * ProbabilityTheory.cond μ (Ioi L) B := by
  rw [C67_reject_law (μ := μ) (fun i => measurable_pi_apply i) (iIndepFun_infinitePi (X := fun _ => id) fun _ => measurable_id)
    (fun i => Measure.infinitePi_map_eval (fun _ => μ) i) hp [A, B] (by simp [hA, hB])]
  simp

end Pacal.Sampler
