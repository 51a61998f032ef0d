import Verif.Util.Roots
import Mathlib.Topology.Order.IntermediateValue
import Mathlib.Topology.Algebra.Order.LiminfLimsup
import Mathlib.Topology.Instances.Real.Lemmas
import Mathlib.Tactic.Linarith
import Mathlib.Tactic.NormNum
import Mathlib.Tactic.FieldSimp
import Mathlib.Tactic.Ring
import Mathlib.Algebra.Order.Archimedean.Basic

/-!
# Property C38: root finders keep a bracket

`uIcc a b` is the closed interval between `a` and `b`, in either order.
-/

set_option linter.unusedSectionVars false

namespace Pacal
open Roots Set
variable {K : Type*} [Field K] [LinearOrder K] [IsStrictOrderedRing K]

namespace Roots

theorem mem_uIcc_add {a d t : K} (h0 : 0 ≤ t) (h1 : t ≤ 1) : a + t * d ∈ uIcc a (a + d) := by
  rw [mem_uIcc]
  rcases le_total 0 d with h | h
  · left; constructor <;> nlinarith
  · right; constructor <;> nlinarith

theorem half_sub {a d x : K} (h : x ∈ uIcc a (a + d / 2) ∨ x ∈ uIcc (a + d / 2) (a + d)) :
    x ∈ uIcc a (a + d) := by
  simp only [mem_uIcc] at h ⊢
  rcases le_total 0 d with hd | hd
  · rcases h with (h | h) | (h | h) <;> left <;> constructor <;> linarith [h.1, h.2]
  · rcases h with (h | h) | (h | h) <;> right <;> constructor <;> linarith [h.1, h.2]

theorem sign_prod {fa x y : K} (h1 : 0 < fa * x) (h2 : fa * y ≤ 0) : x * y ≤ 0 := by
  have hfa : fa ≠ 0 := by rintro rfl; simp at h1
  have h3 : 0 < fa * fa := mul_self_pos.2 hfa
  have hx : (fa * x) * (fa * y) ≤ 0 := mul_nonpos_of_nonneg_of_nonpos h1.le h2
  by_contra hc
  push Not at hc
  nlinarith

theorem dist_mid {a d r : K} (h : r ∈ uIcc a (a + d)) : |a + d / 2 - r| ≤ |d / 2| := by
  rw [mem_uIcc] at h
  rcases h with h | h
  · have : 0 ≤ d := by linarith [h.1, h.2]
    rw [abs_of_nonneg (show 0 ≤ d / 2 by linarith), abs_le]
    constructor <;> linarith [h.1, h.2]
  · have : d ≤ 0 := by linarith [h.1, h.2]
    rw [abs_of_nonpos (show d / 2 ≤ 0 by linarith), abs_le]
    constructor <;> linarith [h.1, h.2]

theorem dist_uIcc {a d x r : K} (hx : x ∈ uIcc a (a + d)) (h : r ∈ uIcc a (a + d)) : |x - r| ≤ |d| := by
  rw [mem_uIcc] at h hx
  rcases le_total 0 d with hd | hd
  · rw [abs_of_nonneg hd, abs_le]
    rcases h with h | h <;> rcases hx with hx | hx <;> constructor <;> linarith [h.1, h.2, hx.1, hx.2]
  · rw [abs_of_nonpos hd, abs_le]
    rcases h with h | h <;> rcases hx with hx | hx <;> constructor <;> linarith [h.1, h.2, hx.1, hx.2]

/-- Loop invariant and its consequence: the sign change stays bracketed, the result lies in the bracket. -/
theorem bisectLoop_spec (f : K → K) (fa tol : K) : ∀ (k : ℕ) (xa dm : K) (last : Option K),
    0 < fa * f xa → fa * f (xa + dm) ≤ 0 → (k = 0 → ∃ l, last = some l ∧ l ∈ uIcc xa (xa + dm)) →
    ∃ x w a b, bisectLoop f fa tol k xa dm last = .ok (x, w) ∧
      uIcc a b ⊆ uIcc xa (xa + dm) ∧ x ∈ uIcc a b ∧ f a * f b ≤ 0 ∧
      (w = false → f x = 0 ∨ ∀ r ∈ uIcc a b, |x - r| < tol) ∧
      (w = true → (∀ r ∈ uIcc a b, |x - r| ≤ |dm| / 2 ^ k) ∧ (k = 0 ∨ tol ≤ |dm| / 2 ^ k)) := by
  intro k
  induction k with
  | zero =>
    intro xa dm last h1 h2 hl
    obtain ⟨l, rfl, hm⟩ := hl rfl
    refine ⟨l, true, xa, xa + dm, rfl, subset_rfl, hm, sign_prod h1 h2, by simp, fun _ => ⟨?_, .inl rfl⟩⟩
    intro r hr
    rw [pow_zero, div_one]
    exact dist_uIcc hm hr
  | succ k ih =>
    intro xa dm last h1 h2 _
    have hfa : fa ≠ 0 := by rintro rfl; simp at h1
    have hmid : xa + dm / 2 ∈ uIcc xa (xa + dm) := by
      have := mem_uIcc_add (a := xa) (d := dm) (t := 1 / 2) (by norm_num) (by norm_num)
      rwa [one_div_mul_eq_div] at this
    unfold bisectLoop
    dsimp only
    by_cases hstop : f (xa + dm / 2) = 0 ∨ |dm / 2| < tol
    · rw [if_pos hstop]
      refine ⟨_, false, xa, xa + dm, rfl, subset_rfl, hmid, sign_prod h1 h2, ?_, by simp⟩
      intro _
      rcases hstop with h | h
      · exact .inl h
      · exact .inr fun r hr => lt_of_le_of_lt (dist_mid hr) h
    · rw [if_neg hstop]
      push Not at hstop
      have e : xa + dm / 2 + dm / 2 = xa + dm := by ring
      have e2 : |dm / 2| / 2 ^ k = |dm| / 2 ^ (k + 1) := by
        rw [abs_div, abs_two, pow_succ]; field_simp
      have fin : ∀ {w : Bool}, (w = true → k = 0 ∨ tol ≤ |dm / 2| / 2 ^ k) →
          (w = true → k + 1 = 0 ∨ tol ≤ |dm| / 2 ^ (k + 1)) := by
        intro w h hw
        right
        rcases h hw with h | h
        · subst h; rw [← e2, pow_zero, div_one]; exact hstop.2
        · rwa [← e2]
      by_cases hs : 0 ≤ f (xa + dm / 2) * fa
      · rw [if_pos hs]
        obtain ⟨x, w, a, b, hr, hsub, hxab, hp, hw1, hw2⟩ := ih (xa + dm / 2) (dm / 2) (some (xa + dm / 2))
          (by
            have : f (xa + dm / 2) * fa ≠ 0 := mul_ne_zero hstop.1 hfa
            rw [mul_comm]; exact lt_of_le_of_ne hs (Ne.symm this))
          (by rw [e]; exact h2) (fun _ => ⟨_, rfl, left_mem_uIcc⟩)
        rw [e] at hsub
        refine ⟨x, w, a, b, hr, fun y hy => half_sub (.inr (hsub hy)), hxab, hp, hw1, fun hw => ⟨?_, ?_⟩⟩
        · intro r hr'
          rw [← e2]; exact (hw2 hw).1 r hr'
        · exact fin (fun h => (hw2 h).2) hw
      · rw [if_neg hs]
        push Not at hs
        obtain ⟨x, w, a, b, hr, hsub, hxab, hp, hw1, hw2⟩ := ih xa (dm / 2) (some (xa + dm / 2)) h1
          (by rw [mul_comm]; exact hs.le) (fun _ => ⟨_, rfl, right_mem_uIcc⟩)
        refine ⟨x, w, a, b, hr, fun y hy => half_sub (.inl (hsub hy)), hxab, hp, hw1, fun hw => ⟨?_, ?_⟩⟩
        · intro r hr'
          rw [← e2]; exact (hw2 hw).1 r hr'
        · exact fin (fun h => (hw2 h).2) hw

end Roots

/-- the tolerance used by `bisect` -/
def bisectTol (xa xb xtol rtol : K) : K := min xtol (rtol * (|xa| + |xb|))

/-- **C38, bisection (over every ordered field).** If the values at the ends have different signs and at
least one iteration is allowed, `bisect` returns a point `x` of a sub-bracket `[a, b]` on which `f` still
changes sign; without the warning, `f x = 0` or the whole sub-bracket is within the tolerance of `x`; with
the warning (iterations exhausted) it is within `|xb - xa| / 2^maxiter` of `x`, and the warning cannot
occur once that is below the tolerance. -/
theorem C38_bisect (f : K → K) (xa xb xtol rtol : K) (maxiter : ℕ) (hm : 0 < maxiter)
    (hsign : f xa * f xb ≤ 0) :
    ∃ x w a b, bisect f xa xb xtol rtol maxiter = .ok (x, w) ∧ x ∈ uIcc a b ∧ uIcc a b ⊆ uIcc xa xb ∧
      f a * f b ≤ 0 ∧
      (w = false → f x = 0 ∨ ∀ r ∈ uIcc a b, |x - r| < bisectTol xa xb xtol rtol) ∧
      (w = true → (∀ r ∈ uIcc a b, |x - r| ≤ |xb - xa| / 2 ^ maxiter) ∧
        bisectTol xa xb xtol rtol ≤ |xb - xa| / 2 ^ maxiter) := by
  unfold bisect
  dsimp only
  rw [if_neg (not_lt.2 hsign)]
  by_cases h1 : f xa = 0
  · rw [if_pos h1]
    exact ⟨xa, false, xa, xb, rfl, left_mem_uIcc, subset_rfl, hsign, fun _ => .inl h1, by simp⟩
  · rw [if_neg h1]
    by_cases h2 : f xb = 0
    · rw [if_pos h2]
      exact ⟨xb, false, xa, xb, rfl, right_mem_uIcc, subset_rfl, hsign, fun _ => .inl h2, by simp⟩
    · rw [if_neg h2]
      have e : xa + (xb - xa) = xb := by ring
      obtain ⟨x, w, a, b, hr, hsub, hx, hp, hw1, hw2⟩ := bisectLoop_spec f (f xa)
        (min xtol (rtol * (|xa| + |xb|))) maxiter xa (xb - xa) none (mul_self_pos.2 h1) (by rw [e]; exact hsign)
        (by omega)
      rw [e] at hsub
      refine ⟨x, w, a, b, hr, hx, hsub, hp, hw1, fun hw => ⟨(hw2 hw).1, ?_⟩⟩
      rcases (hw2 hw).2 with h | h
      · omega
      · exact h

/-- Without a sign change `bisect` raises. -/
theorem C38_bisect_rejects (f : K → K) (xa xb xtol rtol : K) (maxiter : ℕ) (h : 0 < f xa * f xb) :
    bisect f xa xb xtol rtol maxiter = .error (.op 1) := by
  unfold bisect
  simp [h]

/-- A continuous function with a sign change has a zero in between. -/
theorem exists_zero {f : ℝ → ℝ} {a b : ℝ} (hf : ContinuousOn f (uIcc a b)) (h : f a * f b ≤ 0) :
    ∃ r ∈ uIcc a b, f r = 0 := by
  have : (0 : ℝ) ∈ uIcc (f a) (f b) := by
    rw [mem_uIcc]
    rcases mul_nonpos_iff.1 h with h | h
    · right; exact ⟨h.2, h.1⟩
    · left; exact h
  obtain ⟨r, hr, h0⟩ := intermediate_value_uIcc hf this
  exact ⟨r, hr, h0⟩

/-- **C38, bisection of a continuous function.** The result lies in the given bracket and, when the
iterations suffice for the (positive) tolerance, there is a zero within the tolerance. -/
theorem C38_bisect_zero (f : ℝ → ℝ) (xa xb xtol rtol : ℝ) (maxiter : ℕ) (hm : 0 < maxiter)
    (hf : ContinuousOn f (uIcc xa xb)) (hsign : f xa * f xb ≤ 0)
    (htol : |xb - xa| / 2 ^ maxiter < bisectTol xa xb xtol rtol) :
    ∃ x, bisect f xa xb xtol rtol maxiter = .ok (x, false) ∧ x ∈ uIcc xa xb ∧
      ∃ r ∈ uIcc xa xb, f r = 0 ∧ |x - r| < bisectTol xa xb xtol rtol := by
  obtain ⟨x, w, a, b, hr, hx, hsub, hp, hw1, hw2⟩ := C38_bisect f xa xb xtol rtol maxiter hm hsign
  have hw : w = false := by
    cases w
    · rfl
    · have := (hw2 rfl).2; linarith
  subst hw
  refine ⟨x, hr, hsub hx, ?_⟩
  rcases hw1 rfl with h | h
  · refine ⟨x, hsub hx, h, ?_⟩
    rw [sub_self, abs_zero]
    exact lt_of_le_of_lt (by positivity) htol
  · obtain ⟨r, hr', h0⟩ := exists_zero (hf.mono hsub) hp
    exact ⟨r, hsub hr', h0, h r hr'⟩

/-- Non-vacuity: a zero of `x² - 2` in [1, 2] within 1/8. -/
example : bisect (fun x : ℚ => x ^ 2 - 2) 1 2 (1 / 8) 1 10 = .ok (23 / 16, false) := by decide +kernel

/-! ### expanding brackets -/

namespace Roots

theorem minfLoop_spec (fin : K → Bool) (fn : K → K) (c : K) : ∀ (fuel : ℕ) (a b a' b' : K),
    minfLoop fin fn c fuel a b = .ok (a', b') → a < b → c ≤ fn b →
    a' < b' ∧ b' ≤ b ∧ c ≤ fn b' ∧ (fin a' = true → fn a' ≤ c) := by
  intro fuel
  induction fuel with
  | zero =>
    intro a b a' b' h hab hb
    unfold minfLoop at h
    split at h
    · cases h
    · next hc =>
      cases h
      exact ⟨hab, le_rfl, hb, fun hf => by by_contra hn; exact hc ⟨hf, not_le.1 hn⟩⟩
  | succ fuel ih =>
    intro a b a' b' h hab hb
    unfold minfLoop at h
    split at h
    · next hc =>
      have hd : 0 < b - a := by linarith
      obtain ⟨h1, h2, h3, h4⟩ := ih _ _ _ _ h (by linarith) hc.2.le
      exact ⟨h1, by linarith, h3, h4⟩
    · next hc =>
      cases h
      exact ⟨hab, le_rfl, hb, fun hf => by by_contra hn; exact hc ⟨hf, not_le.1 hn⟩⟩

theorem pinfLoop_spec (fin : K → Bool) (fn : K → K) (c : K) : ∀ (fuel : ℕ) (a b a' b' : K),
    pinfLoop fin fn c fuel a b = .ok (a', b') → a < b → fn a ≤ c →
    a' < b' ∧ a ≤ a' ∧ fn a' ≤ c ∧ (fin b' = true → c ≤ fn b') := by
  intro fuel
  induction fuel with
  | zero =>
    intro a b a' b' h hab hb
    unfold pinfLoop at h
    split at h
    · cases h
    · next hc =>
      cases h
      exact ⟨hab, le_rfl, hb, fun hf => by by_contra hn; exact hc ⟨hf, not_le.1 hn⟩⟩
  | succ fuel ih =>
    intro a b a' b' h hab hb
    unfold pinfLoop at h
    split at h
    · next hc =>
      have hd : 0 < b - a := by linarith
      obtain ⟨h1, h2, h3, h4⟩ := ih _ _ _ _ h (by linarith) hc.2.le
      exact ⟨h1, by linarith, h3, h4⟩
    · next hc =>
      cases h
      exact ⟨hab, le_rfl, hb, fun hf => by by_contra hn; exact hc ⟨hf, not_le.1 hn⟩⟩

/-- termination: the bracket end moves by at least 1 in each step -/
theorem minfLoop_term (fin : K → Bool) (fn : K → K) (c m : K) (hm : ∀ x ≤ m, fn x ≤ c) : ∀ (fuel : ℕ) (a b : K),
    1 ≤ b - a → a - m ≤ fuel → ∃ r, minfLoop fin fn c fuel a b = .ok r := by
  intro fuel
  induction fuel with
  | zero =>
    intro a b _ h
    unfold minfLoop
    rw [if_neg]
    · exact ⟨_, rfl⟩
    · rintro ⟨_, h'⟩
      have := hm a (by simpa using h)
      linarith
  | succ fuel ih =>
    intro a b hab h
    unfold minfLoop
    split
    · push_cast at h
      exact ih _ _ (by linarith) (by linarith)
    · exact ⟨_, rfl⟩

theorem pinfLoop_term (fin : K → Bool) (fn : K → K) (c m : K) (hm : ∀ x, m ≤ x → c ≤ fn x) : ∀ (fuel : ℕ) (a b : K),
    1 ≤ b - a → m - b ≤ fuel → ∃ r, pinfLoop fin fn c fuel a b = .ok r := by
  intro fuel
  induction fuel with
  | zero =>
    intro a b _ h
    unfold pinfLoop
    rw [if_neg]
    · exact ⟨_, rfl⟩
    · rintro ⟨_, h'⟩
      have := hm b (by simpa using h)
      linarith
  | succ fuel ih =>
    intro a b hab h
    unfold pinfLoop
    split
    · push_cast at h
      exact ih _ _ (by linarith) (by linarith)
    · exact ⟨_, rfl⟩

end Roots

/-- **C38, inverse on (-∞, b].** Whenever `findinv_minf` returns a number, it is what the root finder
returned for a bracket `[a', b']` that ends at or below `b` and on which `fn - c` changes sign; `nan` is
returned exactly when `fn b < c`. No monotonicity is needed. -/
theorem C38_findinv_minf (fin : K → Bool) (solver : Finder K) (fuel : ℕ) (fn : K → K) (b c : K) :
    (findinvMinf fin solver fuel fn b c = .ok .nan ↔ fn b < c) ∧
    ∀ x, findinvMinf fin solver fuel fn b c = .ok (.root x) →
      ∃ a' b', a' < b' ∧ b' ≤ b ∧ fn a' ≤ c ∧ c ≤ fn b' ∧ solver (fun t => fn t - c) a' b' = .ok x := by
  have ha : b - max 1 (1 / 10 * |b|) < b := by
    have : 0 < max 1 (1 / 10 * |b|) := lt_of_lt_of_le one_pos (le_max_left _ _)
    linarith
  unfold findinvMinf
  dsimp only
  by_cases hb : c ≤ fn b
  · simp only [hb, not_true_eq_false, if_false, not_lt.2 hb, iff_false]
    cases hl : minfLoop fin fn c fuel (b - max 1 (1 / 10 * |b|)) b with
    | error e => simp [bind, Except.bind]
    | ok r =>
      obtain ⟨a', b'⟩ := r
      obtain ⟨h1, h2, h3, h4⟩ := minfLoop_spec fin fn c fuel _ _ _ _ hl ha hb
      simp only [bind, Except.bind]
      cases hf : fin a'
      · simp
      · simp only [if_true]
        unfold findinv
        cases hs : solver (fun t => fn t - c) a' b' with
        | error e => simp
        | ok y =>
          refine ⟨by simp, ?_⟩
          intro x hx
          simp only [Except.ok.injEq, Res.root.injEq] at hx
          subst hx
          exact ⟨a', b', h1, h2, h4 hf, h3, hs⟩
  · simp [hb, not_le.1 hb]

/-- **C38, inverse on [a, ∞), increasing functions.** -/
theorem C38_findinv_pinf (fin : K → Bool) (solver : Finder K) (fuel : ℕ) (fn : K → K) (a c : K) :
    (findinvPinf fin solver fuel fn a c true = .ok .nan ↔ c < fn a) ∧
    ∀ x, findinvPinf fin solver fuel fn a c true = .ok (.root x) →
      ∃ a' b', a' < b' ∧ a ≤ a' ∧ fn a' ≤ c ∧ c ≤ fn b' ∧ solver (fun t => fn t - c) a' b' = .ok x := by
  have ha : a < a + max 1 (1 / 10 * |a|) := by
    have : 0 < max 1 (1 / 10 * |a|) := lt_of_lt_of_le one_pos (le_max_left _ _)
    linarith
  unfold findinvPinf
  dsimp only
  simp only [if_true, one_mul, sub_nonpos]
  by_cases hb : fn a ≤ c
  · simp only [hb, not_true_eq_false, if_false, not_lt.2 hb, iff_false]
    cases hl : pinfLoop fin fn c fuel a (a + max 1 (1 / 10 * |a|)) with
    | error e => simp [bind, Except.bind]
    | ok r =>
      obtain ⟨a', b'⟩ := r
      obtain ⟨h1, h2, h3, h4⟩ := pinfLoop_spec fin fn c fuel _ _ _ _ hl ha hb
      simp only [bind, Except.bind]
      cases hf : fin b'
      · simp
      · simp only [if_true]
        unfold findinv
        cases hs : solver (fun t => fn t - c) a' b' with
        | error e => simp
        | ok y =>
          refine ⟨by simp, ?_⟩
          intro x hx
          simp only [Except.ok.injEq, Res.root.injEq] at hx
          subst hx
          exact ⟨a', b', h1, h2, h3, h4 hf, hs⟩
  · simp [hb, not_le.1 hb]

/-- `bisect` as the root finder of `findinv` (no scipy) -/
def bisectFinder (xtol rtol : K) (maxiter : ℕ) : Finder K := fun f a b =>
  (bisect f a b xtol rtol maxiter).map Prod.fst

/-- **C38, termination of the expanding search.** If `fn` is at most `c` far enough to the left (resp. at
least `c` far enough to the right), the search ends after finitely many expansions. -/
theorem C38_expansion_terminates [Archimedean K] (fin : K → Bool) (fn : K → K) (b c m : K) :
    ((∀ x ≤ m, fn x ≤ c) →
      ∃ fuel r, minfLoop fin fn c fuel (b - max 1 (1 / 10 * |b|)) b = .ok r) ∧
    ((∀ x, m ≤ x → c ≤ fn x) →
      ∃ fuel r, pinfLoop fin fn c fuel b (b + max 1 (1 / 10 * |b|)) = .ok r) := by
  constructor
  · intro h
    obtain ⟨n, hn⟩ := exists_nat_ge ((b - max 1 (1 / 10 * |b|)) - m)
    exact ⟨n, minfLoop_term fin fn c m h n _ _ (by
      have := le_max_left 1 (1 / 10 * |b|); linarith) hn⟩
  · intro h
    obtain ⟨n, hn⟩ := exists_nat_ge (m - (b + max 1 (1 / 10 * |b|)))
    exact ⟨n, pinfLoop_term fin fn c m h n _ _ (by
      have := le_max_left 1 (1 / 10 * |b|); linarith) hn⟩

/-- **C38, inverse of a continuous function with `bisect`**: the number returned by `findinv_minf` is at
most `b` and close to a point where `fn` takes the value `c`, when the iterations suffice. -/
theorem C38_findinv_minf_value (fuel : ℕ) (fn : ℝ → ℝ) (hfn : Continuous fn) (b c xtol rtol : ℝ) (maxiter : ℕ)
    (hm : 0 < maxiter) (x : ℝ)
    (h : findinvMinf (fun _ => true) (bisectFinder xtol rtol maxiter) fuel fn b c = .ok (.root x)) :
    x ≤ b ∧ ∃ a' b', x ∈ uIcc a' b' ∧ b' ≤ b ∧ ∃ r ∈ uIcc a' b', fn r = c ∧
      (|b' - a'| / 2 ^ maxiter < bisectTol a' b' xtol rtol → |x - r| < bisectTol a' b' xtol rtol) := by
  obtain ⟨a', b', hlt, hle, h1, h2, hs⟩ := (C38_findinv_minf _ _ _ _ _ _).2 x h
  have hsign : (fun t => fn t - c) a' * (fun t => fn t - c) b' ≤ 0 :=
    mul_nonpos_of_nonpos_of_nonneg (by simpa using h1) (by simpa using h2)
  have hcont : ContinuousOn (fun t => fn t - c) (uIcc a' b') := (hfn.sub continuous_const).continuousOn
  obtain ⟨y, w, p, q, hr, hy, hsub, hp, hw1, hw2⟩ := C38_bisect (fun t => fn t - c) a' b' xtol rtol maxiter hm hsign
  have hxy : x = y := by
    unfold bisectFinder at hs
    rw [hr] at hs
    simpa [Except.map] using hs.symm
  subst hxy
  have hxm := hsub hy
  have hxb : x ≤ b' := by
    rw [uIcc_of_le hlt.le] at hxm; exact hxm.2
  obtain ⟨r, hr', h0⟩ := exists_zero (hcont.mono hsub) hp
  refine ⟨hxb.trans hle, a', b', hxm, hle, ?_⟩
  by_cases hw : |b' - a'| / 2 ^ maxiter < bisectTol a' b' xtol rtol
  · obtain ⟨z, hz, _, r, hr1, hr2, hr3⟩ := C38_bisect_zero _ a' b' xtol rtol maxiter hm hcont hsign hw
    rw [hr] at hz
    cases hz
    exact ⟨r, hr1, by simpa [sub_eq_zero] using hr2, fun _ => hr3⟩
  · exact ⟨r, hsub hr', by simpa [sub_eq_zero] using h0, fun h => absurd h hw⟩

/-- **C38 violated for decreasing functions**: `findinv_pinf(fun, a, c, increasing=False)` stops expanding
when `fn b ≥ c`, which for a decreasing function means that the bracket has no sign change: for
`fn x = 10 - x`, `a = 0`, `c = 1` the finder gets the bracket [0, 1], and `bisect` raises. -/
theorem C38_violated_decreasing :
    (findinvPinf (fun _ : ℚ => true) (bisectFinder (1 / 100) 1 50) 100 (fun x => 10 - x) 0 1 false
      matches .error (.op 1)) = true := by
  decide +kernel

end Pacal
