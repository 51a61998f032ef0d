import Verif.Estim.Lem

/-!
C89: maximum likelihood estimation.
-/

namespace Pacal.Estim

/-- C89: an estimator made from a class all of whose parameters have defaults starts from these defaults, each under its name -/
theorem C89_start (own : Sig) (names : List String) (ds : List ℝ) (ha : own.args = "self" :: names) (hd : own.defaults = some ds)
    (hl : ds.length = names.length) (hn : names.Nodup) :
    ∃ e, init (some own) none = .ok e ∧ e.params = names ∧ e.defvals = ds ∧ Binds e.parkvargs names ds := by
  refine ⟨⟨names, ds, names.zip ds⟩, ?_, rfl, rfl, rfl⟩
  unfold init
  simp only [ha, hd, List.mem_cons, true_or, if_true, List.erase_cons_head, ← hl, List.take_length]
  rw [bindAll_ok (by rw [hl]) hn (by simp)]
  simp [Except.map]

/-- `NormalDistr.__init__(self, mu=0.0, sigma=1.0, **kwargs)` (standard_distr.py:142) -/
example : ∃ e, init (some ⟨["self", "mu", "sigma"], some [0, 1]⟩) none = .ok e ∧ Binds e.parkvargs ["mu", "sigma"] [0, 1] := by
  obtain ⟨e, h, -, -, h'⟩ := C89_start ⟨["self", "mu", "sigma"], some [0, 1]⟩ ["mu", "sigma"] [0, 1] rfl rfl rfl (by decide)
  exact ⟨e, h, h'⟩

/-- C89: parameters and starting values given by the user are used as they are -/
theorem C89_given (own : Option Sig) (names : List String) (vals : List ℝ) (hl : vals.length = names.length) (hn : names.Nodup) :
    ∃ e, init own (some (names, some vals)) = .ok e ∧ e.params = names ∧ e.defvals = vals ∧ Binds e.parkvargs names vals := by
  refine ⟨⟨names, vals, names.zip vals⟩, ?_, rfl, rfl, rfl⟩
  unfold init
  simp only
  rw [bindAll_ok (by rw [hl]) hn (by simp)]
  simp [Except.map]

/-- C89: the estimator is refused, and never starts from made-up values, if the class inherits its constructor, if the constructor
has no parameter `self`, if none of its parameters has a default, if names are given without values and if there are fewer values
than names -/
theorem C89_refused : (init none none = .error .key) ∧
    (∀ own : Sig, "self" ∉ own.args → init (some own) none = .error .value) ∧
    (∀ own : Sig, "self" ∈ own.args → own.defaults = none → init (some own) none = .error .typ) ∧
    (∀ own names, names ≠ [] → init own (some (names, none)) = .error .typ) ∧
    ∀ own names vals, vals.length < names.length → init own (some (names, some vals)) = .error .index := by
  refine ⟨rfl, fun own h => ?_, fun own h hd => ?_, fun own names h => ?_, fun own names vals h => ?_⟩
  · simp [init, h]
  · simp [init, h, hd]
  · cases names with
    | nil => exact absurd rfl h
    | cons k ks => rfl
  · simp [init, bindAll_short h, Except.map]

/-- C89: if a name is given twice, the last value counts -/
theorem C89_last (names : List String) (vals : List ℝ) (hl : vals.length = names.length) :
    ∃ kw, makeKwargs names vals = .ok kw ∧ ∀ k, kw.lookup k = (names.zip vals).reverse.lookup k := by
  obtain ⟨kw, h, h'⟩ := bindAll_lookup names vals [] hl.ge
  exact ⟨kw, h, by simpa using h'⟩

example : ∃ kw, makeKwargs ["mu", "sigma", "mu"] [0, 1, 2] = .ok kw ∧ kw.lookup "mu" = some 2 := by
  obtain ⟨kw, h, h'⟩ := C89_last ["mu", "sigma", "mu"] [0, 1, 2] rfl
  exact ⟨kw, h, (h' _).trans rfl⟩

/-- C89: comparing two parameter values by `logli` is comparing the likelihoods of the data in which every density is increased
by `eps` (`1e-300` in the code) -/
theorem C89_compare {eps : ℝ} (he : 0 < eps) {D : List (String × ℝ) → Except PyErr (PF ℝ)} {xi : List ℝ} {e : Est}
    {S : Set (List ℝ)} {p : List ℝ → ℝ → ℝ} (hn : e.params.Nodup) (hF : Family D e.params S xi p) {θ θ' : List ℝ} (hθ : θ ∈ S)
    (hθ' : θ' ∈ S) : ∃ u v, logli eps D .float xi e θ = .ok u ∧ logli eps D .float xi e θ' = .ok v ∧
      (u ≤ v ↔ likelihood (fun x => p θ' x + eps) xi ≤ likelihood (fun x => p θ x + eps) xi) := by
  refine ⟨_, _, logli_eq he hn hF hθ, logli_eq he hn hF hθ', ?_⟩
  rw [neg_le_neg_iff]
  exact Real.log_le_log_iff (likelihood_pos he (hF.nonneg θ' hθ')) (likelihood_pos he (hF.nonneg θ hθ))

/-- C89, weaker than wanted: if `fmin` finds a minimum among the parameter values `S`, then `find_params()` returns these values,
each under its name, and no value in `S` makes the data more likely: exactly for one observation, otherwise up to the increase of
the densities by `eps`, that is up to the factor `(1 + eps / δ) ^ n` if the found densities are at least `δ`.  (Wanted: the
largest likelihood.  See `C89_violated_offset`.) -/
theorem C89_find_partial {eps : ℝ} (he : 0 < eps) {fmin : (List ℝ → Except PyErr ℝ) → List ℝ → Except PyErr (List ℝ)}
    {D : List (String × ℝ) → Except PyErr (PF ℝ)} {xi : List ℝ} {e : Est} {S : Set (List ℝ)} {p : List ℝ → ℝ → ℝ}
    (hn : e.params.Nodup) (hF : Family D e.params S xi p) {θ : List ℝ}
    (hf : fmin (logli eps D .float xi e) e.defvals = .ok θ) (hm : MinimisesOn (logli eps D .float xi e) S θ) :
    (∃ kw, findParams eps fmin D .float xi e = .ok kw ∧ Binds kw e.params θ) ∧
    ∀ θ' ∈ S, likelihood (fun x => p θ' x + eps) xi ≤ likelihood (fun x => p θ x + eps) xi ∧
      (∀ x, xi = [x] → p θ' x ≤ p θ x) ∧
      ∀ δ, 0 < δ → (∀ x ∈ xi, δ ≤ p θ x) → likelihood (p θ') xi ≤ (1 + eps / δ) ^ xi.length * likelihood (p θ) xi := by
  refine ⟨⟨e.params.zip θ, ?_, rfl⟩, fun θ' hθ' => ?_⟩
  · unfold findParams
    simp only [hf, Bind.bind, Except.bind]
    unfold makeKwargs
    rw [bindAll_ok (by rw [hF.length θ hm.1]) hn (by simp)]
    simp
  obtain ⟨u, v, h1, h2, h3⟩ := C89_compare he hn hF hm.1 hθ'
  have h4 := h3.1 (hm.2 θ' hθ' u v h1 h2)
  refine ⟨h4, ?_, fun δ hδ h => ?_⟩
  · rintro x rfl
    simpa [likelihood] using h4
  · refine (likelihood_mono (hF.nonneg θ' hθ') fun x hx => ?_).trans (h4.trans ?_)
    · exact le_add_of_nonneg_right he.le
    rw [← likelihood_scale]
    refine likelihood_mono (fun x hx => (add_pos_of_nonneg_of_pos (hF.nonneg θ hm.1 x hx) he).le) fun x hx => ?_
    have h5 : eps ≤ eps / δ * p θ x := by
      rw [div_mul_eq_mul_div, le_div_iff₀ hδ]
      exact mul_le_mul_of_nonneg_left (h x hx) he.le
    linarith

/-- C89: the order of the data does not matter -/
theorem C89_order (eps : ℝ) (D : List (String × ℝ) → Except PyErr (PF ℝ)) (dt : DType) {xi xi' : List ℝ} (h : xi.Perm xi') (e : Est)
    (θ : List ℝ) : logli eps D dt xi e θ = logli eps D dt xi' e θ := by
  have : ∀ pdf, negLog eps dt xi pdf = negLog eps dt xi' pdf := fun pdf => by
    unfold negLog
    rw [(h.map _).sum_eq]
  unfold logli
  simp only [this]

/-- the class of uniform distributions on `[0, b]` for `b` with `0 < b` -/
noncomputable def uniformTo : List (String × ℝ) → Except PyErr (PF ℝ)
  | [(_, b)] => open Classical in if 0 < b then .ok [.const 0 b (1 / b)] else .error .assertion
  | _ => .error .typ

/-- the estimator for the right end -/
noncomputable def uniformEst : Est := ⟨["b"], [1], [("b", 1)]⟩

theorem uniformTo_eval {b x : ℝ} (h : 0 ≤ x ∧ x ≤ b) (hb : 0 < b) : PF.evalVec [.const 0 b (1 / b)] x = 1 / b := by
  by_cases h' : x = b
  · subst h'; simp [PF.evalVec, PF.segs, Seg.isDirac, Seg.hi, Seg.fn]
  · have h1 : x < b := lt_of_le_of_ne h.2 h'
    have e : ¬ (Ext.fin x = (Seg.const 0 b (1 / b)).hi) := by simpa [Seg.hi, Ext.fin] using h'
    simp only [PF.evalVec, PF.segs, Seg.isDirac, List.filter, Bool.not_false, List.getLast?_singleton, if_neg e]
    simp only [PF.evalVecLoop]
    rw [if_pos]
    · rfl
    · exact ⟨by simpa [Seg.lo, Ext.fin] using h.1, by simpa [Seg.hi, Ext.fin] using h1⟩

/-- the estimate of the right end from the observation 2 among the values from 2 on is 2 -/
example {fmin : (List ℝ → Except PyErr ℝ) → List ℝ → Except PyErr (List ℝ)}
    (hf : ∀ f x, MinimisesOn f {θ | ∃ b, θ = [b] ∧ 2 ≤ b} [2] → fmin f x = .ok [2]) :
    findParams 1 fmin uniformTo .float [2] uniformEst = .ok [("b", 2)] := by
  have hF : Family uniformTo uniformEst.params {θ | ∃ b, θ = [b] ∧ 2 ≤ b} [2] (fun θ _ => 1 / θ.headD 1) := by
    refine ⟨?_, ?_, ?_⟩
    · rintro _ ⟨b, rfl, -⟩; rfl
    · rintro _ ⟨b, rfl, hb⟩ kw rfl
      refine ⟨[.const 0 b (1 / b)], if_pos (by linarith), ?_⟩
      intro x hx
      obtain rfl : x = 2 := by simpa using hx
      exact uniformTo_eval ⟨by norm_num, hb⟩ (by linarith)
    · rintro _ ⟨b, rfl, hb⟩ x -
      simp only [List.headD_cons]
      positivity
  have hm : MinimisesOn (logli 1 uniformTo .float [2] uniformEst) {θ | ∃ b, θ = [b] ∧ 2 ≤ b} [2] := by
    refine ⟨⟨2, rfl, le_rfl⟩, ?_⟩
    rintro _ ⟨b, rfl, hb⟩ u v hu hv
    obtain ⟨u', v', h1, h2, h3⟩ := C89_compare one_pos (e := uniformEst) (by decide) hF (θ := [2]) (θ' := [b]) ⟨2, rfl, le_rfl⟩ ⟨b, rfl, hb⟩
    rw [hu] at h1; rw [hv] at h2
    rw [Except.ok.inj h1, Except.ok.inj h2]
    refine h3.2 ?_
    simp only [likelihood, List.map_cons, List.map_nil, List.prod_singleton, List.headD_cons]
    have : 1 / b ≤ 1 / 2 := one_div_le_one_div_of_le (by norm_num) hb
    linarith
  obtain ⟨⟨kw, h1, h2⟩, -⟩ := C89_find_partial one_pos (by decide) hF (hf _ _ hm) hm
  rw [h1, h2]
  rfl

/-- A class with a parameter that has no default cannot be used without naming the parameters, although it has defaults: for
`LogLogisticDistr.__init__(self, k, s=1.0, **kwargs)` the constructor of the estimator is an `IndexError`. -/
theorem C89_violated_required : init (some ⟨["self", "k", "s"], some [1]⟩) none = .error .index := by
  unfold init
  have e : ["self", "k", "s"].erase "self" = ["k", "s"] := by decide
  simp [e, bindAll, Except.map]

/-- two distributions: for `t = 0` uniform on `[1, 1 + 10 ** (-10)]`, otherwise a density that is `10 ** (-301)` on `[0, 0.5]` and
constant on `[1, 2]` -/
noncomputable def twoDensities : List (String × ℝ) → Except PyErr (PF ℝ)
  | [(_, t)] => open Classical in
    if t = 0 then .ok [.const 1 (1 + 1 / 10 ^ 10) (10 ^ 10)]
    else .ok [.const 0 (1 / 2) (1 / 10 ^ 301), .const 1 2 (1 - 1 / (2 * 10 ^ 301))]
  | _ => .error .typ

/-- Parameters that make the data possible are not always preferred: for the observations 0 and 1 the value `t = 0`, under which
0 cannot occur, has a smaller `logli` than `t = 1`, under which both occur.  The densities are increased by `10 ** (-300)`. -/
theorem C89_violated_offset : ∃ u v, logli (1 / 10 ^ 300) twoDensities .float [0, 1] ⟨["t"], [0], [("t", 0)]⟩ [0] = .ok u ∧
    logli (1 / 10 ^ 300) twoDensities .float [0, 1] ⟨["t"], [0], [("t", 0)]⟩ [1] = .ok v ∧ u < v ∧
    ∃ f g, twoDensities [("t", 0)] = .ok f ∧ twoDensities [("t", 1)] = .ok g ∧ likelihood f.evalVec [0, 1] = 0 ∧
      0 < likelihood g.evalVec [0, 1] := by
  have f1 : twoDensities [("t", 0)] = .ok [.const 1 (1 + 1 / 10 ^ 10) (10 ^ 10)] := if_pos rfl
  have g1 : twoDensities [("t", 1)] = .ok [.const 0 (1 / 2) (1 / 10 ^ 301), .const 1 2 (1 - 1 / (2 * 10 ^ 301))] :=
    if_neg one_ne_zero
  have ef0 : PF.evalVec [.const 1 (1 + 1 / 10 ^ 10) (10 ^ 10)] (0 : ℝ) = 0 := by
    norm_num [PF.evalVec, PF.segs, PF.evalVecLoop, Seg.isDirac, Seg.hi, Seg.lo, Seg.fn, Ext.fin]
  have ef1 : PF.evalVec [.const 1 (1 + 1 / 10 ^ 10) (10 ^ 10)] (1 : ℝ) = 10 ^ 10 := by
    norm_num [PF.evalVec, PF.segs, PF.evalVecLoop, Seg.isDirac, Seg.hi, Seg.lo, Seg.fn, Ext.fin]
  have eg0 : PF.evalVec [.const 0 (1 / 2) (1 / 10 ^ 301), .const 1 2 (1 - 1 / (2 * 10 ^ 301))] (0 : ℝ) = 1 / 10 ^ 301 := by
    norm_num [PF.evalVec, PF.segs, PF.evalVecLoop, Seg.isDirac, Seg.hi, Seg.lo, Seg.fn, Ext.fin]
  have eg1 : PF.evalVec [.const 0 (1 / 2) (1 / 10 ^ 301), .const 1 2 (1 - 1 / (2 * 10 ^ 301))] (1 : ℝ) = 1 - 1 / (2 * 10 ^ 301) := by
    norm_num [PF.evalVec, PF.segs, PF.evalVecLoop, Seg.isDirac, Seg.hi, Seg.lo, Seg.fn, Ext.fin]
  have he : (0 : ℝ) < 1 / 10 ^ 300 := by positivity
  have hE : (1 : ℝ) / 10 ^ 300 ≤ 1 := by
    rw [div_le_one (by positivity)]
    exact one_le_pow₀ (by norm_num)
  have h301 : (1 : ℝ) / 10 ^ 301 = 1 / 10 ^ 300 / 10 := by rw [pow_succ, div_div]
  have h302 : (1 : ℝ) / (2 * 10 ^ 301) = 1 / 10 ^ 300 / 20 := by rw [pow_succ, div_div]; ring
  have hq : (0 : ℝ) < 1 - 1 / (2 * 10 ^ 301) := by rw [h302]; linarith
  refine ⟨negLog (1 / 10 ^ 300) .float [0, 1] [.const 1 (1 + 1 / 10 ^ 10) (10 ^ 10)],
    negLog (1 / 10 ^ 300) .float [0, 1] [.const 0 (1 / 2) (1 / 10 ^ 301), .const 1 2 (1 - 1 / (2 * 10 ^ 301))], ?_, ?_, ?_,
    _, _, f1, g1, ?_, ?_⟩
  · unfold logli
    have : makeKwargs ["t"] [(0 : ℝ)] = .ok [("t", 0)] := by simp [makeKwargs, bindAll, setItem]
    simp only [this, Bind.bind, Except.bind, f1]
  · unfold logli
    have : makeKwargs ["t"] [(1 : ℝ)] = .ok [("t", 1)] := by simp [makeKwargs, bindAll, setItem]
    simp only [this, Bind.bind, Except.bind, g1]
  · rw [negLog_eq he, negLog_eq he, neg_lt_neg_iff]
    · refine Real.log_lt_log ?_ ?_
      · simp only [likelihood, List.map_cons, List.map_nil, List.prod_cons, List.prod_nil, eg0, eg1]
        positivity
      · simp only [likelihood, List.map_cons, List.map_nil, List.prod_cons, List.prod_nil, eg0, eg1, ef0, ef1]
        rw [h301, h302]
        generalize (1 : ℝ) / 10 ^ 300 = E at he hE ⊢
        norm_num
        nlinarith
    · intro x hx
      simp only [List.mem_cons, List.not_mem_nil, or_false] at hx
      rcases hx with rfl | rfl
      · rw [eg0]; positivity
      · rw [eg1]; exact hq.le
    · intro x hx
      simp only [List.mem_cons, List.not_mem_nil, or_false] at hx
      rcases hx with rfl | rfl
      · rw [ef0]
      · rw [ef1]; positivity
  · simp only [likelihood, List.map_cons, List.prod_cons, ef0, zero_mul]
  · simp only [likelihood, List.map_cons, List.map_nil, List.prod_cons, List.prod_nil, eg0, eg1]
    positivity

/-- Discrete distributions cannot be estimated: arrays are evaluated without the atoms, so `logli` has the same value
`-n * log(1e-300)` for all parameters of a class of discrete distributions. -/
theorem C89_violated_discrete (eps : ℝ) (D : List (String × ℝ) → Except PyErr (PF ℝ)) (dt : DType) (xi : List ℝ) (e : Est)
    (hD : ∀ kw pdf, D kw = .ok pdf → ∀ s ∈ pdf, s.isDirac = true) (θ : List ℝ) (v : ℝ) (h : logli eps D dt xi e θ = .ok v) :
    v = -(xi.length * Real.log eps) := by
  unfold logli at h
  cases hk : makeKwargs e.params θ with
  | error q => rw [hk] at h; simp [Bind.bind, Except.bind] at h
  | ok kw =>
    cases hd : D kw with
    | error q => rw [hk] at h; simp [Bind.bind, Except.bind, hd] at h
    | ok pdf =>
      rw [hk] at h
      simp only [Bind.bind, Except.bind, hd, Except.ok.injEq] at h
      rw [← h]
      have e0 : ∀ x, pdf.evalVec x = 0 := by
        intro x
        have : PF.segs pdf = [] := List.filter_eq_nil_iff.2 fun s hs => by simp [hD kw pdf hd s hs]
        simp [PF.evalVec, this, PF.evalVecLoop]
      have e1 : dt.store 0 = 0 := by cases dt <;> simp [DType.store]
      simp [negLog, e0, e1]

/-- the class `BernoulliDistr` -/
noncomputable def bernoulli : List (String × ℝ) → Except PyErr (PF ℝ)
  | [(_, p)] => .ok [.dirac 0 (1 - p), .dirac 1 p]
  | _ => .error .typ

/-- `p = 0` and `p = 1` explain the observation 1 equally well -/
example : logli (1 / 10 ^ 300) bernoulli .float [1] ⟨["p"], [1 / 2], [("p", 1 / 2)]⟩ [0]
    = logli (1 / 10 ^ 300) bernoulli .float [1] ⟨["p"], [1 / 2], [("p", 1 / 2)]⟩ [1] := by
  have hD : ∀ kw pdf, bernoulli kw = .ok pdf → ∀ s ∈ pdf, s.isDirac = true := by
    intro kw pdf h s hs
    match kw, h with
    | [(_, p)], h =>
      obtain rfl := Except.ok.inj h
      simp only [List.mem_cons, List.not_mem_nil, or_false] at hs
      rcases hs with rfl | rfl <;> rfl
  have k : ∀ t : ℝ, ∃ v, logli (1 / 10 ^ 300) bernoulli .float [1] ⟨["p"], [1 / 2], [("p", 1 / 2)]⟩ [t] = .ok v :=
    fun t => ⟨_, by simp [logli, makeKwargs, bindAll, setItem, Bind.bind, Except.bind, bernoulli]; rfl⟩
  obtain ⟨u, hu⟩ := k 0
  obtain ⟨v, hv⟩ := k 1
  rw [hu, hv, C89_violated_discrete _ _ _ _ _ hD _ _ hu, C89_violated_discrete _ _ _ _ _ hD _ _ hv]

/-- Data of an integer type make the densities integers: as long as all densities at the data are less than 1, `logli` has the
same value for all parameters. -/
theorem C89_violated_integers (eps : ℝ) (D : List (String × ℝ) → Except PyErr (PF ℝ)) (xi : List ℝ) (e : Est)
    (hD : ∀ kw pdf, D kw = .ok pdf → ∀ x ∈ xi, 0 ≤ pdf.evalVec x ∧ pdf.evalVec x < 1) (θ : List ℝ) (v : ℝ)
    (h : logli eps D .int xi e θ = .ok v) : v = -(xi.length * Real.log eps) := by
  unfold logli at h
  cases hk : makeKwargs e.params θ with
  | error q => rw [hk] at h; simp [Bind.bind, Except.bind] at h
  | ok kw =>
    cases hd : D kw with
    | error q => rw [hk] at h; simp [Bind.bind, Except.bind, hd] at h
    | ok pdf =>
      rw [hk] at h
      simp only [Bind.bind, Except.bind, hd, Except.ok.injEq] at h
      rw [← h]
      have e0 : ∀ x ∈ xi, DType.int.store (pdf.evalVec x) = 0 := by
        intro x hx
        obtain ⟨h1, h2⟩ := hD kw pdf hd x hx
        simp only [DType.store, if_pos h1]
        exact_mod_cast Int.floor_eq_zero_iff.2 ⟨h1, h2⟩
      unfold negLog
      rw [List.map_congr_left (g := fun _ => Real.log eps) fun x hx => by rw [e0 x hx, zero_add]]
      simp

/-- uniform distributions on `[0, b]` with `b > 1`, observation 2 -/
example : logli (1 / 10 ^ 300) uniformTo .int [2] uniformEst [3] = logli (1 / 10 ^ 300) uniformTo .int [2] uniformEst [1000] := by
  have k : ∀ t : ℝ, 2 ≤ t → logli (1 / 10 ^ 300) uniformTo .int [2] uniformEst [t] = .ok (-(1 * Real.log (1 / 10 ^ 300))) := by
    intro t ht
    have h1 : uniformTo [("b", t)] = .ok [.const 0 t (1 / t)] := if_pos (by linarith)
    have h2 : (0 : ℝ) ≤ 1 / t := by positivity
    have h3 : (1 : ℝ) / t < 1 := (div_lt_one (by linarith)).2 (by linarith)
    have h4 : DType.int.store (1 / t) = 0 := by
      simp only [DType.store, if_pos h2]
      exact_mod_cast Int.floor_eq_zero_iff.2 ⟨h2, h3⟩
    have h5 : makeKwargs uniformEst.params [t] = .ok [("b", t)] := by simp [makeKwargs, uniformEst, bindAll, setItem]
    unfold logli
    simp only [h5, Bind.bind, Except.bind, h1, negLog, List.map_cons, List.map_nil, List.sum_cons, List.sum_nil, add_zero,
      uniformTo_eval (b := t) (x := 2) ⟨by norm_num, ht⟩ (by linarith), h4, zero_add, one_mul]
  rw [k 3 (by norm_num), k 1000 (by norm_num)]

end Pacal.Estim
