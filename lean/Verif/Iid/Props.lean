import Verif.Iid.Law
import Mathlib.MeasureTheory.Constructions.BorelSpace.Order
import Mathlib.MeasureTheory.Constructions.BorelSpace.Real
import Mathlib.MeasureTheory.Measure.Dirac

/-!
# Properties C32, C33, C34, C35

C32 iid operations are n-fold operations, C33 temporary settings are restored, C34 order statistics,
C35 binomial and multinomial coefficients.
-/

open MeasureTheory ProbabilityTheory

namespace Pacal
open Iid
variable {α : Type*}

/-! ## C32 -/

/-- **C32 (algebraic form).** For an associative operation the result of `iid_op(X, n, op)` is
`x ∘ x ∘ ... ∘ x` with `n` copies, for every `n ≥ 1`. -/
theorem C32_iid_op (f : α → α → α) (hassoc : ∀ a b c, f (f a b) c = f a (f b c)) (x : α) (n : ℕ)
    (hn : 1 ≤ n) (s : Bool) :
    iidOp (fun a b => Cfg.pure (f a b)) x n s = (.ok (some (nfold f (fun _ => x) 0 (n - 1))), s) := by
  have shift : ∀ k j, nfold f (fun _ => x) j k = nfold f (fun _ => x) 0 k := by
    intro k
    induction k with
    | zero => intro j; rfl
    | succ k ih => intro j; simp only [nfold]; rw [ih j]
  obtain ⟨r, h₁, h₂⟩ := intExp_rel (fun a m => 1 ≤ m ∧ a = nfold f (fun _ => x) 0 (m - 1))
    (fun a b => Cfg.pure (f a b)) x ⟨le_rfl, rfl⟩ false (by
      rintro a b m k ⟨hm, rfl⟩ ⟨hk, rfl⟩
      refine ⟨_, rfl, by omega, ?_⟩
      have e : m + k - 1 = (m - 1) + (k - 1) + 1 := by omega
      rw [e, nfold_append f hassoc, shift (k - 1) (0 + (m - 1 + 1))]) n hn
  simp [iidOp, Cfg.bind, Cfg.getWarn, Cfg.setWarn, Cfg.pure, h₁, h₂.2]

/-- **C32 (`all` variant, algebraic form).** The list has exactly `n` entries and entry `i` is the
`(i+1)`-fold operation. -/
theorem C32_iid_op_all (f : α → α → α) (hassoc : ∀ a b c, f (f a b) c = f a (f b c)) (x : α) (n : ℕ)
    (hn : 1 ≤ n) (s : Bool) :
    ∃ l : List α, iidOpAll (fun a b => Cfg.pure (f a b)) x n s = (.ok l, s) ∧ l.length = n ∧
      ∀ i (h : i < l.length), l[i] = nfold f (fun _ => x) 0 i := by
  have shift : ∀ k j, nfold f (fun _ => x) j k = nfold f (fun _ => x) 0 k := by
    intro k
    induction k with
    | zero => intro j; rfl
    | succ k ih => intro j; simp only [nfold]; rw [ih j]
  obtain ⟨l, h₁, h₂, h₃⟩ := intExpAll_rel (fun a m => 1 ≤ m ∧ a = nfold f (fun _ => x) 0 (m - 1))
    (fun a b => Cfg.pure (f a b)) x ⟨le_rfl, rfl⟩ false (by
      rintro a b m k ⟨hm, rfl⟩ ⟨hk, rfl⟩
      refine ⟨_, rfl, by omega, ?_⟩
      have e : m + k - 1 = (m - 1) + (k - 1) + 1 := by omega
      rw [e, nfold_append f hassoc, shift (k - 1) (0 + (m - 1 + 1))]) n hn
  refine ⟨l, ?_, h₂, ?_⟩
  · simp [iidOpAll, Cfg.bind, Cfg.getWarn, Cfg.setWarn, Cfg.pure, h₁]
  · intro i h
    simpa using (h₃ i h).2

/-- What is assumed of one binary operation on distribution objects (proved for the operations
themselves elsewhere): with the warning switched off it succeeds, leaves the setting alone, and the law of
the result is the law of `g X Y` for independent `X`, `Y`. -/
def BinaryLaw (law : α → Measure ℝ) (g : ℝ → ℝ → ℝ) (op : α → α → Cfg α) : Prop :=
  ∀ a b, ∃ c, op a b false = (.ok c, false) ∧
    law c = ((law a).prod (law b)).map (Function.uncurry g)

/-- **C32 (laws).** For every `n ≥ 1` and every family `X 0, X 1, ...` of independent variables with the
law of the given distribution, `iid_op` returns a distribution with the law of
`X 0 ∘ X 1 ∘ ... ∘ X (n-1)`. -/
theorem C32_iid_law (law : α → Measure ℝ) (g : ℝ → ℝ → ℝ) (hg : Measurable (Function.uncurry g))
    (hassoc : ∀ a b c, g (g a b) c = g a (g b c)) (op : α → α → Cfg α) (hop : BinaryLaw law g op)
    (x : α) (n : ℕ) (hn : 1 ≤ n) {Ω : Type*} [MeasurableSpace Ω] (P : Measure Ω)
    [IsProbabilityMeasure P] (X : ℕ → Ω → ℝ) (hX : ∀ i, Measurable (X i)) (hind : iIndepFun X P)
    (hlaw : ∀ i, P.map (X i) = law x) (s : Bool) :
    ∃ r, iidOp op x n s = (.ok (some r), s) ∧
      law r = P.map (fun ω => nfold g (fun i => X i ω) 0 (n - 1)) := by
  obtain ⟨r, h₁, h₂⟩ := intExp_rel (HasLaw law P g X) op x ⟨le_rfl, fun j => (hlaw j).symm⟩ false (by
    intro a b m k ha hb
    obtain ⟨c, h₁, h₂⟩ := hop a b
    exact ⟨c, h₁, hasLaw_op hg hassoc hX hind ha hb h₂⟩) n hn
  refine ⟨r, ?_, h₂.2 0⟩
  simp [iidOp, Cfg.bind, Cfg.getWarn, Cfg.setWarn, Cfg.pure, h₁]

/-- **C32 (laws, `all`).** Entry `i` of the list has the law of the `(i+1)`-fold operation. -/
theorem C32_iid_law_all (law : α → Measure ℝ) (g : ℝ → ℝ → ℝ) (hg : Measurable (Function.uncurry g))
    (hassoc : ∀ a b c, g (g a b) c = g a (g b c)) (op : α → α → Cfg α) (hop : BinaryLaw law g op)
    (x : α) (n : ℕ) (hn : 1 ≤ n) {Ω : Type*} [MeasurableSpace Ω] (P : Measure Ω)
    [IsProbabilityMeasure P] (X : ℕ → Ω → ℝ) (hX : ∀ i, Measurable (X i)) (hind : iIndepFun X P)
    (hlaw : ∀ i, P.map (X i) = law x) (s : Bool) :
    ∃ l, iidOpAll op x n s = (.ok l, s) ∧ l.length = n ∧
      ∀ i (h : i < l.length), law l[i] = P.map (fun ω => nfold g (fun i => X i ω) 0 i) := by
  obtain ⟨l, h₁, h₂, h₃⟩ := intExpAll_rel (HasLaw law P g X) op x ⟨le_rfl, fun j => (hlaw j).symm⟩
    false (by
      intro a b m k ha hb
      obtain ⟨c, h₁, h₂⟩ := hop a b
      exact ⟨c, h₁, hasLaw_op hg hassoc hX hind ha hb h₂⟩) n hn
  refine ⟨l, ?_, h₂, fun i h => by simpa using (h₃ i h).2 0⟩
  simp [iidOpAll, Cfg.bind, Cfg.getWarn, Cfg.setWarn, Cfg.pure, h₁]

/-- `nfold` for the four library operations: sum, product, smallest and largest element. -/
theorem nfold_add (X : ℕ → ℝ) (k : ℕ) : nfold (· + ·) X 0 k = ∑ i ∈ Finset.range (k + 1), X i := by
  induction k with
  | zero => simp [nfold]
  | succ k ih => rw [nfold, ih, Finset.sum_range_succ _ (k + 1), Nat.zero_add]

theorem nfold_mul (X : ℕ → ℝ) (k : ℕ) : nfold (· * ·) X 0 k = ∏ i ∈ Finset.range (k + 1), X i := by
  induction k with
  | zero => simp [nfold]
  | succ k ih => rw [nfold, ih, Finset.prod_range_succ _ (k + 1), Nat.zero_add]

theorem nfold_max (X : ℕ → ℝ) (k : ℕ) : IsGreatest (X '' {i | i ≤ k}) (nfold max X 0 k) := by
  induction k with
  | zero =>
    refine ⟨⟨0, Nat.le_refl 0, rfl⟩, ?_⟩
    rintro _ ⟨i, hi, rfl⟩
    have : i = 0 := by simpa using hi
    subst this; exact le_rfl
  | succ k ih =>
    rw [nfold, Nat.zero_add]
    obtain ⟨⟨i₀, hi₀, e⟩, hu⟩ := ih
    refine ⟨?_, ?_⟩
    · rcases max_choice (nfold max X 0 k) (X (k + 1)) with h | h
      · rw [h]; exact ⟨i₀, Nat.le_succ_of_le hi₀, e⟩
      · rw [h]; exact ⟨k + 1, le_refl (k + 1), rfl⟩
    · rintro _ ⟨i, hi, rfl⟩
      rcases Nat.lt_or_ge i (k + 1) with h | h
      · exact (hu ⟨i, Nat.lt_succ_iff.1 h, rfl⟩).trans (le_max_left _ _)
      · have hi : i ≤ k + 1 := hi
        have : i = k + 1 := le_antisymm hi h
        subst this; exact le_max_right _ _

theorem nfold_min (X : ℕ → ℝ) (k : ℕ) : IsLeast (X '' {i | i ≤ k}) (nfold min X 0 k) := by
  induction k with
  | zero =>
    refine ⟨⟨0, Nat.le_refl 0, rfl⟩, ?_⟩
    rintro _ ⟨i, hi, rfl⟩
    have : i = 0 := by simpa using hi
    subst this; exact le_rfl
  | succ k ih =>
    rw [nfold, Nat.zero_add]
    obtain ⟨⟨i₀, hi₀, e⟩, hu⟩ := ih
    refine ⟨?_, ?_⟩
    · rcases min_choice (nfold min X 0 k) (X (k + 1)) with h | h
      · rw [h]; exact ⟨i₀, Nat.le_succ_of_le hi₀, e⟩
      · rw [h]; exact ⟨k + 1, le_refl (k + 1), rfl⟩
    · rintro _ ⟨i, hi, rfl⟩
      rcases Nat.lt_or_ge i (k + 1) with h | h
      · exact (min_le_left _ _).trans (hu ⟨i, Nat.lt_succ_iff.1 h, rfl⟩)
      · have hi : i ≤ k + 1 := hi
        have : i = k + 1 := le_antisymm hi h
        subst this; exact min_le_right _ _

/-- **C32, `iid_sum`.** The law is that of `X 0 + ... + X (n-1)`. -/
theorem C32_iid_sum (law : α → Measure ℝ) (add : α → α → Cfg α) (hop : BinaryLaw law (· + ·) add)
    (x : α) (n : ℕ) (hn : 1 ≤ n) {Ω : Type*} [MeasurableSpace Ω] (P : Measure Ω)
    [IsProbabilityMeasure P] (X : ℕ → Ω → ℝ) (hX : ∀ i, Measurable (X i)) (hind : iIndepFun X P)
    (hlaw : ∀ i, P.map (X i) = law x) (s : Bool) :
    ∃ r, iidOp add x n s = (.ok (some r), s) ∧
      law r = P.map (fun ω => ∑ i ∈ Finset.range n, X i ω) := by
  obtain ⟨r, h₁, h₂⟩ := C32_iid_law law (· + ·) (measurable_fst.add measurable_snd)
    (fun a b c => add_assoc a b c) add hop x n hn P X hX hind hlaw s
  refine ⟨r, h₁, ?_⟩
  rw [h₂]
  congr 1
  ext ω
  rw [nfold_add, Nat.sub_add_cancel hn]

/-- **C32, `iid_average`.** The law is that of `(X 0 + ... + X (n-1)) / n`. -/
theorem C32_iid_average (law : α → Measure ℝ) (add : α → α → Cfg α) (div : α → ℕ → Cfg α)
    (hop : BinaryLaw law (· + ·) add)
    (hdiv : ∀ a k s, 1 ≤ k → ∃ c, div a k s = (.ok c, s) ∧ law c = (law a).map (· / (k : ℝ)))
    (x : α) (n : ℕ) (hn : 1 ≤ n) {Ω : Type*} [MeasurableSpace Ω] (P : Measure Ω)
    [IsProbabilityMeasure P] (X : ℕ → Ω → ℝ) (hX : ∀ i, Measurable (X i)) (hind : iIndepFun X P)
    (hlaw : ∀ i, P.map (X i) = law x) (s : Bool) :
    ∃ r, iidAverage add div x n s = (.ok r, s) ∧
      law r = P.map (fun ω => (∑ i ∈ Finset.range n, X i ω) / n) := by
  obtain ⟨a, h₁, h₂⟩ := C32_iid_sum law add hop x n hn P X hX hind hlaw s
  obtain ⟨c, h₃, h₄⟩ := hdiv a n s hn
  refine ⟨c, by simp [iidAverage, Cfg.bind, h₁, h₃], ?_⟩
  rw [h₄, h₂, Measure.map_map (by fun_prop) (by fun_prop)]
  rfl

/-- **C32, `iid_average` with `all`.** Entry `i` has the law of the average of `i+1` copies. -/
theorem C32_iid_average_all (law : α → Measure ℝ) (add : α → α → Cfg α) (div : α → ℕ → Cfg α)
    (hop : BinaryLaw law (· + ·) add)
    (hdiv : ∀ a k s, 1 ≤ k → ∃ c, div a k s = (.ok c, s) ∧ law c = (law a).map (· / (k : ℝ)))
    (x : α) (n : ℕ) (hn : 1 ≤ n) {Ω : Type*} [MeasurableSpace Ω] (P : Measure Ω)
    [IsProbabilityMeasure P] (X : ℕ → Ω → ℝ) (hX : ∀ i, Measurable (X i)) (hind : iIndepFun X P)
    (hlaw : ∀ i, P.map (X i) = law x) (s : Bool) :
    ∃ l, iidAverageAll add div x n s = (.ok l, s) ∧ l.length = n ∧
      ∀ i (h : i < l.length),
        law l[i] = P.map (fun ω => (∑ j ∈ Finset.range (i + 1), X j ω) / ((i + 1 : ℕ) : ℝ)) := by
  obtain ⟨l, h₁, h₂, h₃⟩ := C32_iid_law_all law (· + ·) (measurable_fst.add measurable_snd)
    (fun a b c => add_assoc a b c) add hop x n hn P X hX hind hlaw s
  obtain ⟨l', h₄, h₅, h₆⟩ := mapIdxM_rel (fun i a => div a (i + 1)) s
    (fun i c => law c = P.map (fun ω => (∑ j ∈ Finset.range (i + 1), X j ω) / ((i + 1 : ℕ) : ℝ))) l 0 (by
      intro j h
      obtain ⟨c, hc, hl⟩ := hdiv l[j] (0 + j + 1) s (by omega)
      refine ⟨c, hc, ?_⟩
      rw [hl, h₃ j h, Nat.zero_add, Measure.map_map (by fun_prop) (by
        exact measurable_nfold (measurable_fst.add measurable_snd) hX 0 j)]
      congr 1
      ext ω
      simp only [Function.comp]
      rw [nfold_add])
  refine ⟨l', by simp [iidAverageAll, Cfg.bind, h₁, h₄], h₅.trans h₂, fun i h => by simpa using h₆ i h⟩

/-- **C32, `iid_average_geom`** (single result): the `n`-th root of the `n`-fold product. -/
theorem C32_iid_average_geom (law : α → Measure ℝ) (mul : α → α → Cfg α) (root : α → ℕ → Cfg α)
    (hop : BinaryLaw law (· * ·) mul) (rt : ℝ → ℕ → ℝ) (hrt : ∀ k, Measurable (fun x => rt x k))
    (hroot : ∀ a k s, 1 ≤ k → ∃ c, root a k s = (.ok c, s) ∧ law c = (law a).map (fun y => rt y k))
    (x : α) (n : ℕ) (hn : 1 ≤ n) {Ω : Type*} [MeasurableSpace Ω] (P : Measure Ω)
    [IsProbabilityMeasure P] (X : ℕ → Ω → ℝ) (hX : ∀ i, Measurable (X i)) (hind : iIndepFun X P)
    (hlaw : ∀ i, P.map (X i) = law x) (s : Bool) :
    ∃ r, iidAverageGeom mul root x n s = (.ok r, s) ∧
      law r = P.map (fun ω => rt (∏ i ∈ Finset.range n, X i ω) n) := by
  obtain ⟨a, h₁, h₂⟩ := C32_iid_law law (· * ·) (measurable_fst.mul measurable_snd)
    (fun a b c => mul_assoc a b c) mul hop x n hn P X hX hind hlaw s
  obtain ⟨c, h₃, h₄⟩ := hroot a n s hn
  refine ⟨c, by simp [iidAverageGeom, Cfg.bind, h₁, h₃], ?_⟩
  rw [h₄, h₂, Measure.map_map (hrt n) 
    (measurable_nfold (g := (· * ·)) (measurable_fst.mul measurable_snd) hX 0 (n - 1))]
  congr 1
  ext ω
  simp only [Function.comp]
  rw [nfold_mul, Nat.sub_add_cancel hn]

/-- **C32 violated by `iid_average_geom(all=True)`.** With `n = 2` the first entry, which should be the
distribution itself (first root of one copy), is its square root: the exponent `1/n` is used for every
entry (stats/iid_ops.py:130). Here `mul` and `root` build symbolic terms. -/
theorem C32_violated_geom_all :
    iidAverageGeomAll (fun a b => Cfg.pure (a ++ "*" ++ b)) (fun a k => Cfg.pure (s!"({a})^(1/{k})"))
      "X" 2 true = (.ok ["(X)^(1/2)", "(X*X)^(1/2)"], true) := by
  rfl

/-- Hypotheses of the law theorems: distributions represented by their laws, `g` the sum. -/
example : BinaryLaw (α := Measure ℝ) id (· + ·)
    (fun a b => Cfg.pure ((a.prod b).map (Function.uncurry (· + ·)))) :=
  fun _ _ => ⟨_, rfl, rfl⟩

example : iidOp (fun a b : ℕ => Cfg.pure (a + b)) 5 13 true = (.ok (some 65), true) := by decide +kernel

example : iidOpAll (fun a b : ℕ => Cfg.pure (a * b)) 2 5 true = (.ok [2, 4, 8, 16, 32], true) := by
  decide +kernel

/-! ## C33 -/

/-- The full claim: whatever the operation does (also raise, also change the setting itself), the setting
afterwards is the one from before. -/
def C33_full : Prop :=
  ∀ (op : ℕ → ℕ → Cfg ℕ) (x n : ℕ) (s : Bool), (iidOp op x n s).2 = s

/-- **C33, partial: normal return.** If the operation returns, the setting is restored, whatever the
operation did to it in between; and the operation runs with warnings off unless it changes that itself. -/
theorem C33_restored_partial (op : α → α → Cfg α) (x : α) (n : ℕ) (s : Bool) (r : Option α)
    (h : (iidOp op x n s).1 = .ok r) :
    (iidOp op x n s).2 = s ∧ ∃ s', intExp op x n false = (.ok r, s') := by
  simp only [iidOp, Cfg.bind, Cfg.getWarn, Cfg.setWarn, Cfg.pure] at h ⊢
  rcases he : intExp op x n false with ⟨_ | y, s'⟩
  · rw [he] at h; simp at h
  · rw [he] at h
    simp only [Except.ok.injEq] at h
    subst h
    exact ⟨rfl, s', rfl⟩

/-- **C33, partial, `all` variant.** -/
theorem C33_restored_all_partial (op : α → α → Cfg α) (x : α) (n : ℕ) (s : Bool) (r : List α)
    (h : (iidOpAll op x n s).1 = .ok r) :
    (iidOpAll op x n s).2 = s ∧ ∃ s', intExpAll op x n false = (.ok r, s') := by
  simp only [iidOpAll, Cfg.bind, Cfg.getWarn, Cfg.setWarn, Cfg.pure] at h ⊢
  rcases he : intExpAll op x n false with ⟨_ | y, s'⟩
  · rw [he] at h; simp at h
  · rw [he] at h
    simp only [Except.ok.injEq] at h
    subst h
    exact ⟨rfl, s', rfl⟩

/-- What happens on failure: warnings stay in the state in which the operation left them, which is off
unless the operation itself switched them on. -/
theorem C33_after_failure (op : α → α → Cfg α) (x : α) (n : ℕ) (s : Bool) (e : PyErr)
    (h : (iidOp op x n s).1 = .error e) :
    (iidOp op x n s).2 = (intExp op x n false).2 := by
  simp only [iidOp, Cfg.bind, Cfg.getWarn, Cfg.setWarn, Cfg.pure] at h ⊢
  rcases he : intExp op x n false with ⟨e' | y, s'⟩
  · rfl
  · rw [he] at h; simp at h

/-- **C33 violated.** An operation that raises leaves the warnings switched off. -/
theorem C33_violated : ¬ C33_full := by
  intro h
  have := h (fun _ _ => Cfg.raise (.op 0)) 0 2 true
  exact absurd this (by decide +kernel)

/-- non-vacuity: an operation that flips the setting, and the setting is still restored -/
example : iidOp (fun a b : ℕ => fun _ => (.ok (a + b), true)) 1 6 false = (.ok (some 6), false) := by
  decide +kernel

/-! ## C34 -/

/-- **C34, first part.** The `n` order-statistic densities add up to `n` times the density, at every
value `f` of the density and `F` of the distribution function. -/
theorem C34_sum {K : Type*} [Field K] [CharZero K] (n : ℕ) (f F : K) :
    ∑ k ∈ Finset.Icc 1 n, orderStat n k f F = n * f := by
  rcases n with _ | n
  · simp
  · have key : ∀ k ∈ Finset.range (n + 1), orderStat (n + 1) (k + 1) f F =
        ((n + 1 : ℕ) : K) * f * (F ^ k * (1 - F) ^ (n - k) * (n.choose k : K)) := by
      intro k hk
      have hk := Finset.mem_range.1 hk
      unfold orderStat
      rw [binomialCoeff_eq (n + 1) (k + 1) (by omega)]
      have h := Nat.add_one_mul_choose_eq n k
      have h' : ((n : K) + 1) * (n.choose k : K) = ((n + 1).choose (k + 1) : K) * (k + 1) := by
        exact_mod_cast h
      have e : n + 1 - (k + 1) = n - k := by omega
      rw [e, Nat.add_sub_cancel]
      push_cast
      linear_combination (-f * F ^ k * (1 - F) ^ (n - k)) * h'
    have e : Finset.Icc 1 (n + 1) = (Finset.range (n + 1)).image (· + 1) := by
      ext k
      simp only [Finset.mem_Icc, Finset.mem_image, Finset.mem_range]
      constructor
      · rintro ⟨h₁, h₂⟩; exact ⟨k - 1, by omega, by omega⟩
      · rintro ⟨j, h₁, rfl⟩; omega
    rw [e, Finset.sum_image (by intro a _ b _ h; simpa using h), Finset.sum_congr rfl key, ← Finset.mul_sum]
    have hb := (Commute.all F (1 - F)).add_pow n
    rw [show F + (1 - F) = 1 by ring, one_pow] at hb
    rw [← hb, mul_one]

/-- **C34, second part.** The density of the `k`-th order statistic is the derivative of the probability
that at least `k` of `n` observations are `≤ x`, wherever the distribution function has derivative `f`. -/
theorem C34_derivative (n k : ℕ) (hk : 1 ≤ k) (hkn : k ≤ n) (F : ℝ → ℝ) (f x : ℝ)
    (hF : HasDerivAt F f x) :
    HasDerivAt (fun y => atLeast n k (F y)) (orderStat n k f (F x)) x := by
  have h := (hasDerivAt_atLeast n (F x) (n - k) k hk (by omega)).comp x hF
  refine h.congr_deriv ?_
  unfold orderStat
  rw [binomialCoeff_eq n k hkn, Rat.cast_natCast]
  ring

/-- **C34, meaning of `atLeast`.** For independent observations with `P(X i ≤ x) = p` the probability that
at least `k` of the first `n` are `≤ x` is `atLeast n k p`. -/
theorem C34_probability {Ω : Type*} [MeasurableSpace Ω] (P : Measure Ω) [IsProbabilityMeasure P]
    (X : ℕ → Ω → ℝ) (hX : ∀ i, Measurable (X i)) (hind : iIndepFun X P) (x p : ℝ)
    (hlaw : ∀ i, P.real {ω | X i ω ≤ x} = p) (n k : ℕ) :
    P.real {ω | k ≤ ((Finset.range n).filter (fun i => X i ω ≤ x)).card} = atLeast n k p :=
  prob_atLeast hX hind x p hlaw n k

/-- **C34, median.** For an odd sample `n = 2m+1` the median is the `(m+1)`-th order statistic, which has
`m` observations on each side. -/
theorem C34_median {K : Type*} [Field K] (m : ℕ) (f F : K) :
    median (2 * m + 1) f F = orderStat (2 * m + 1) (m + 1) f F ∧ (m + 1) - 1 = m ∧
      (2 * m + 1) - (m + 1) = m := by
  refine ⟨?_, by omega, by omega⟩
  unfold median
  congr 1
  omega

/-- `iid_unknown` averages the order statistics `k..n`. -/
theorem C34_unknown {K : Type*} [Field K] (n k : ℕ) (hkn : k ≤ n) (f F : K) :
    unknown n k f F = (∑ i ∈ Finset.Icc k n, orderStat n i f F) / ((1 + n - k : ℕ) : K) := by
  unfold unknown
  have h : ∀ (l : List ℕ) (a : K), l.foldl (fun acc i => acc + orderStat n i f F) a =
      a + (l.map (fun i => orderStat n i f F)).sum := by
    intro l
    induction l with
    | nil => intro a; simp
    | cons i l ih => intro a; rw [List.foldl_cons, ih, List.map_cons, List.sum_cons, add_assoc]
  rw [h, zero_add, Nat.cast_sub (by omega)]
  have : (∑ i ∈ Finset.Icc k n, orderStat n i f F) =
      ((List.range' k (n + 1 - k)).map (fun i => orderStat n i f F)).sum := rfl
  rw [this]
  push_cast
  ring

example : ∑ k ∈ Finset.Icc 1 3, orderStat 3 k (1/2 : ℚ) (1/3) = 3 / 2 := by
  rw [C34_sum]; norm_num

example : HasDerivAt (fun y : ℝ => atLeast 5 2 y) (orderStat 5 2 1 (1/3)) (1/3) :=
  C34_derivative 5 2 (by norm_num) (by norm_num) (fun y => y) 1 (1/3) (hasDerivAt_id _)

/-! ## C35 -/

/-- **C35.** `binomial_coeff(n, k)` is the number of `k`-element subsets of an `n`-element set, for all
`0 ≤ k ≤ n`. -/
theorem C35_binomial (n k : ℕ) (h : k ≤ n) :
    binomialCoeff n k = (((Finset.range n).powersetCard k).card : ℚ) := by
  rw [binomialCoeff_eq n k h, Finset.card_powersetCard, Finset.card_range]

/-- **C35, finding.** For `k > n` the result is 1 although the coefficient is 0. -/
theorem C35_violated_k_gt_n (n k : ℕ) (h : n < k) : binomialCoeff n k = 1 := by
  unfold binomialCoeff
  simp only
  rw [if_pos (by omega)]
  have : ((n : ℤ) - k).toNat = 0 := by omega
  rw [this]; rfl

/-- **C35.** `multinomial_coeff(n, ks)` is `n! / (k₁! ⋯ k_r!)` for all counts with sum `n`, and any other
argument fails the assertion. -/
theorem C35_multinomial (n : ℕ) (ks : List ℕ) :
    (ks.sum = n → multinomialCoeff n ks = .ok ((n.factorial : ℚ) / ((ks.map Nat.factorial).prod : ℕ))) ∧
    (ks.sum ≠ n → multinomialCoeff n ks = .error .assertion) := by
  refine ⟨fun h => ?_, fun h => ?_⟩
  · unfold multinomialCoeff
    rw [if_pos (by exact_mod_cast h)]
    have := multiFold_eq n ks 1 0 (by omega)
    rw [h] at this
    simp only [Nat.sub_zero, Nat.sub_self, Nat.factorial_zero, Nat.cast_one, mul_one, one_mul] at this
    have hne : (((ks.map Nat.factorial).prod : ℕ) : ℚ) ≠ 0 := by
      rw [Nat.cast_ne_zero]
      apply List.prod_ne_zero
      intro h0
      obtain ⟨k, _, hk⟩ := List.mem_map.1 h0
      exact Nat.factorial_ne_zero k hk
    rw [← this]
    congr 1
    field_simp
  · unfold multinomialCoeff
    rw [if_neg (by exact_mod_cast h)]

example : binomialCoeff 10 7 = 120 := by decide +kernel
example : multinomialCoeff 6 [1, 2, 3] = .ok 60 := by decide +kernel

end Pacal
