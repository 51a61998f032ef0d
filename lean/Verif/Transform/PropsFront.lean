import Verif.Transform.FrontLemmas

/-!
# Property C57: every integration front end computes the integral over the requested interval

Given a quadrature exact on finite intervals, all front ends return the exact integral over the interval they
were asked for.  `IsIntegral D f r` is the specification.
-/
set_option linter.unusedSectionVars false

namespace Pacal
open Transform Set MeasureTheory

/-- **C57**, half-infinite and infinite intervals, Fejér. -/
theorem C57_fejer_infinite {q : Quad} (hq : Exact q) (f : ℝ → ℝ) (x : ℝ) {e : ℝ} (he : 0 < e) :
    IsIntegral univ f (fejerPM q f) ∧ IsIntegral (Ioi x) f (fejerP q f x none e) ∧
    IsIntegral (Iio x) f (fejerM q f x none e) :=
  ⟨integrateWith_isIntegral hq C42_reciprocal_pminf f,
    (integrateWith_isIntegral hq (C42_reciprocal_pinf x he) f).congr_ae Ioi_ae_eq_Ici.symm,
    (integrateWith_isIntegral hq (C42_reciprocal_minf x he) f).congr_ae Iio_ae_eq_Iic.symm⟩

/-- **C57**, finite intervals through the same transforms. -/
theorem C57_fejer_finite {q : Quad} (hq : Exact q) (f : ℝ → ℝ) {a b : ℝ} (hab : a ≤ b) {e : ℝ} (he : 0 < e) :
    IsIntegral (Icc a b) f (fejerP q f a (some b) e) ∧ IsIntegral (Icc a b) f (fejerM q f b (some a) e) :=
  ⟨integrateWith_isIntegral hq (C42_reciprocal_pinf_finite hab he) f,
    integrateWith_isIntegral hq (C42_reciprocal_minf_finite hab he) f⟩

/-- **C57**, an interval starting at `+∞` or ending at `-∞` is empty. -/
theorem C57_empty (q : Quad) (f : ℝ → ℝ) (a : Option ℝ) (e : ℝ) :
    IsIntegral ∅ f (fejerP q f ⊤ a e) ∧ IsIntegral ∅ f (fejerM q f ⊥ a e) ∧
    IsIntegral ∅ f (clenshawP q f ⊤) ∧ IsIntegral ∅ f (clenshawM q f ⊥) := by
  refine ⟨?_, ?_, ?_, ?_⟩ <;> rw [IsIntegral, setIntegral_empty] <;> rfl

/-- **C57**, Clenshaw–Curtis with the algebraic transforms. -/
theorem C57_clenshaw_infinite {q : Quad} (hq : Exact q) (f : ℝ → ℝ) (x : ℝ) :
    IsIntegral univ f (clenshawPM q f) ∧ IsIntegral (Ioi x) f (clenshawP q f x) ∧
    IsIntegral (Iio x) f (clenshawM q f x) :=
  ⟨integrateWith_isIntegral hq (C42_algebraic_pminf one_pos) f,
    (integrateWith_isIntegral hq (C42_algebraic_pinf x one_pos) f).congr_ae Ioi_ae_eq_Ici.symm,
    (integrateWith_isIntegral hq (C42_algebraic_minf x one_pos) f).congr_ae Iio_ae_eq_Iic.symm⟩

/-! ### the power substitution near poles -/

/-- **C57**, the power substitution: exact, except that the pole variants skip a sliver of relative width `eps`
at the pole. -/
theorem C57_pole {q : Quad} (hq : Exact q) (f : ℝ → ℝ) {a b N : ℝ} (hN : 0 < N) (eps : ℝ) :
    (a ≤ b → IsIntegral (Icc a b) f (xn q f a b N)) ∧
    (a + |a| * eps ≤ b → IsIntegral (Icc (a + |a| * eps) b) f (xnP q eps f a b N)) ∧
    (a ≤ b - |b| * eps → IsIntegral (Icc a (b - |b| * eps)) f (xnN q eps f a b N)) :=
  ⟨fun h => (hq _ _ _).trans (xn_core h hN f), fun h => (hq _ _ _).trans (xn_core h hN f),
    fun h => (hq _ _ _).trans (xn_core_neg h hN f)⟩

/-! ### wide intervals -/

/-- **C57**, wide intervals with finite ends: subdividing does not change the integral. -/
theorem C57_wide {q : Quad} (hq : Exact q) {cond : ℝ} (hc : 1 < cond) {f : ℝ → ℝ} {a b : ℝ} (hab : a ≤ b)
    (hf : IntegrableOn f (Icc a b)) : IsIntegral (Icc a b) f (wide q cond f a b) := by
  have := wideFin_isIntegral hq hc hab hf
  simpa [wide] using this

/-- **C57** does not hold for infinite ends of a "wide" interval: they are replaced by `∓1e100`. -/
theorem C57_violated_wide_infinite {q : Quad} (hq : Exact q) {cond : ℝ} (hc : 1 < cond) :
    ∃ f : ℝ → ℝ, Integrable f ∧ ¬ IsIntegral (Ici 0) f (wide q cond f (0 : ℝ) ⊤) := by
  refine ⟨(Ioc (10 ^ 100 : ℝ) (10 ^ 100 + 1)).indicator fun _ => 1, ?_, ?_⟩
  · rw [integrable_indicator_iff measurableSet_Ioc]
    exact integrableOn_const (by simp)
  · have h := wideFin_isIntegral hq hc (f := (Ioc (10 ^ 100 : ℝ) (10 ^ 100 + 1)).indicator fun _ => 1)
      (a := 0) (b := 10 ^ 100) (by positivity) (by
        apply Integrable.integrableOn
        rw [integrable_indicator_iff measurableSet_Ioc]
        exact integrableOn_const (by simp))
    have e : wide q cond ((Ioc (10 ^ 100 : ℝ) (10 ^ 100 + 1)).indicator fun _ => 1) (0 : ℝ) ⊤
        = wideFin q cond ((Ioc (10 ^ 100 : ℝ) (10 ^ 100 + 1)).indicator fun _ => 1) 0 (10 ^ 100) := by
      simp [wide]
    rw [e]
    rw [IsIntegral] at h ⊢
    rw [h, setIntegral_indicator measurableSet_Ioc, setIntegral_indicator measurableSet_Ioc]
    have e1 : Icc (0 : ℝ) (10 ^ 100) ∩ Ioc (10 ^ 100 : ℝ) (10 ^ 100 + 1) = ∅ := by
      ext x; simp only [mem_inter_iff, mem_Icc, mem_Ioc, mem_empty_iff_false, iff_false]; rintro ⟨⟨_, h⟩, h', _⟩; linarith
    have e2 : Ici (0 : ℝ) ∩ Ioc (10 ^ 100 : ℝ) (10 ^ 100 + 1) = Ioc (10 ^ 100 : ℝ) (10 ^ 100 + 1) := by
      apply inter_eq_right.2
      intro x hx
      exact le_trans (by positivity) hx.1.le
    rw [e1, e2]
    simp

/-- **C57**, the variants choosing a transform by looking at the function. -/
theorem C57_guess {q : Quad} (hq : Exact q) {f : ℝ → ℝ} {a b : ℝ} (hab : a ≤ b) (hf : IntegrableOn f (Icc a b))
    {e : ℝ} (he : 0 < e) : IsIntegral (Icc a b) f (guess q f a b e) ∧ IsIntegral (Icc a b) f (wide2 q f a b e) := by
  have h1 : a ≤ (a + b) / 2 := by linarith
  have h2 : (a + b) / 2 ≤ b := by linarith
  constructor
  · unfold guess
    split_ifs
    · exact (C57_fejer_finite hq f hab he).1
    · exact (C57_fejer_finite hq f hab he).2
  · unfold wide2
    dsimp only
    split_ifs
    · exact IsIntegral.add h1 h2 hf (C57_fejer_finite hq f h1 he).1 (C57_fejer_finite hq f h2 he).2 rfl
    · exact IsIntegral.add h1 h2 hf (C57_fejer_finite hq f h1 he).2 (C57_fejer_finite hq f h2 he).1 rfl
    · have := (C57_fejer_finite hq f hab he).2; simpa [IsIntegral] using this
    · have := (C57_fejer_finite hq f hab he).1; simpa [IsIntegral] using this
    · have := q_isIntegral hq f hab; simpa [IsIntegral] using this

/-! ### the dispatch -/

/-- **C57**, `_segint` on every interval other than the whole line, with the pole flags (the sliver `eps` at a
pole neglected), without the "wide" flags. -/
theorem C57_segint {q : Quad} (hq : Exact q) {p : QPar} (he : p.eps = 0) (hc : 1 < p.cond) (hi : 0 < p.expInf)
    (hp : 0 < p.expPole) {f : ℝ → ℝ} {L U : EReal} (hLU : L ≤ U) (hne : L ≠ ⊥ ∨ U ≠ ⊤)
    (hf : IntegrableOn f (between L U)) (poleL poleU : Bool) :
    ∃ r, segint q p f L U false false poleL poleU = .ok r ∧ IsIntegral (between L U) f r := by
  induction L using EReal.rec with
  | bot =>
    induction U using EReal.rec with
    | bot =>
      refine ⟨(0, 0), by simp [segint], ?_⟩
      have : between ⊥ ⊥ = ∅ := by ext x; simp [between]
      simp [IsIntegral, this]
    | coe u =>
      refine ⟨fejerM q f u none p.expInf, ?_, ?_⟩
      · simp [segint, (EReal.bot_lt_coe u).ne]; rfl
      · refine (C57_fejer_infinite hq f u hi).2.2.congr_ae ?_
        have : between ⊥ (u : EReal) = Iic u := by ext x; simp [between]
        rw [this]; exact Iio_ae_eq_Iic
    | top => simp at hne
  | coe l =>
    induction U using EReal.rec with
    | bot => simp at hLU
    | coe u =>
      have hb : between (l : EReal) (u : EReal) = Icc l u := by ext x; simp [between]
      have hlu : l ≤ u := by exact_mod_cast hLU
      rw [hb] at hf ⊢
      rcases eq_or_lt_of_le hlu with h | h
      · subst h
        refine ⟨(0, 0), by simp [segint], ?_⟩
        simp [IsIntegral]
      · have hm1 : l ≤ (l + u) * (1 / 2) := by linarith
        have hm2 : (l + u) * (1 / 2) ≤ u := by linarith
        have hP : ∀ m, l ≤ m → IsIntegral (Icc l m) f (xnP q p.eps f l m p.expPole) := by
          intro m hm
          have := (C57_pole hq f (a := l) (b := m) hp p.eps).2.1
          rw [he, mul_zero, add_zero] at this
          rw [he]; exact this hm
        have hN : ∀ m, m ≤ u → IsIntegral (Icc m u) f (xnN q p.eps f m u p.expPole) := by
          intro m hm
          have := (C57_pole hq f (a := m) (b := u) hp p.eps).2.2
          rw [he, mul_zero, sub_zero] at this
          rw [he]; exact this hm
        have hgt : ¬ ((u : EReal) < (l : EReal)) := not_lt.2 hLU
        cases poleL <;> cases poleU
        · exact ⟨_, by simp [segint, hgt, h.ne], C57_wide hq hc hlu hf⟩
        · exact ⟨_, by simp [segint, hgt, h.ne], hN l hlu⟩
        · exact ⟨_, by simp [segint, hgt, h.ne], hP u hlu⟩
        · exact ⟨_, by simp only [segint]; simp [hgt, h.ne]; rfl,
            IsIntegral.add hm1 hm2 hf (hP _ hm1) (hN _ hm2) (by norm_num)⟩
    | top =>
      refine ⟨fejerP q f l none p.expInf, ?_, ?_⟩
      · simp [segint]; rfl
      · refine (C57_fejer_infinite hq f l hi).2.1.congr_ae ?_
        have : between (l : EReal) ⊤ = Ici l := by ext x; simp [between]
        rw [this]; exact Ioi_ae_eq_Ici
  | top =>
    have : U = ⊤ := top_le_iff.1 hLU
    subst this
    refine ⟨(0, 0), by simp [segint], ?_⟩
    have : between ⊤ ⊤ = ∅ := by ext x; simp [between]
    simp [IsIntegral, this]

/-- A reversed interval gives 0. -/
theorem C57_segint_reversed (q : Quad) (p : QPar) (f : ℝ → ℝ) {L U : EReal} (h : U < L) (a b c d : Bool) :
    segint q p f L U a b c d = .ok (0, 0) := by simp [segint, h]

/-- **C57** does not hold on the whole line: the code raises `TypeError`. -/
theorem C57_violated_segint_line (q : Quad) (p : QPar) (f : ℝ → ℝ) (c d : Bool) :
    segint q p f ⊥ ⊤ false false c d = .error .typ := by simp [segint]

/-! ### non-vacuity -/

example : Exact exactQuad := fun _ _ _ => rfl

example : ∃ r, segint exactQuad ⟨0, 10, 6, 8⟩ (fun x => x) (1 : ℝ) (1000 : ℝ) false false true true = .ok r ∧
    r.1 = ∫ x in (1 : ℝ)..1000, x := by
  have hb : between ((1 : ℝ) : EReal) ((1000 : ℝ) : EReal) = Icc 1 1000 := by
    ext x; simp only [between, mem_ofPred_eq, EReal.coe_le_coe_iff, mem_Icc]
  obtain ⟨r, h1, h2⟩ := C57_segint (q := exactQuad) (fun _ _ _ => rfl) (p := ⟨0, 10, 6, 8⟩) rfl (by norm_num) (by norm_num)
    (by norm_num) (f := fun x => x) (L := (1 : ℝ)) (U := (1000 : ℝ)) (by exact_mod_cast (by norm_num : (1 : ℝ) ≤ 1000))
    (.inl (EReal.coe_ne_bot 1)) (by rw [hb]; exact continuousOn_id.integrableOn_Icc) true true
  refine ⟨r, h1, ?_⟩
  rw [IsIntegral, hb] at h2
  rw [h2, intervalIntegral.integral_of_le (by norm_num), integral_Icc_eq_integral_Ioc]

/-- three subintervals for a ratio of 1000 and the condition 10 -/
example : wideCount 10 1000 = 3 := by
  have : Real.logb 10 1000 = 3 := by
    rw [show (1000 : ℝ) = 10 ^ (3 : ℝ) by norm_num]; exact Real.logb_rpow (by norm_num) (by norm_num)
  simp [wideCount, this]

end Pacal
