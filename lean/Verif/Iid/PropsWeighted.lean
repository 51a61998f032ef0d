import Verif.Iid.Weighted
import Verif.Iid.Props

/-!
# Property C32 for operations that know how many copies are behind their operands
-/

open MeasureTheory ProbabilityTheory

namespace Pacal
open Iid
variable {α : Type*}

private theorem loop2_rel (R : α → ℕ → Prop) (op : ℕ → α → ℕ → α → Cfg α) (x : α) (hx : R x 1) (s : Bool)
    (hop : ∀ a b m k, R a m → R b k → ∃ c, op m a k b s = (.ok c, s) ∧ R c (m + k)) :
    ∀ (bs : List Bool) (res : Option α) (v i : ℕ),
      (res = none ∧ v = 0 ∧ i = 1 ∨ ∃ r, res = some r ∧ R r v ∧ 0 < v ∧ i = v) →
      ∃ res', intExp2Loop op x bs res i s = (.ok res', s) ∧
        (res' = none ∧ digitsVal v bs = 0 ∨ ∃ r, res' = some r ∧ R r (digitsVal v bs)) := by
  intro bs
  induction bs with
  | nil =>
    rintro res v i (⟨h1, h2, _⟩ | ⟨r, h1, h2, _⟩)
    · exact ⟨res, rfl, .inl ⟨h1, h2⟩⟩
    · exact ⟨res, rfl, .inr ⟨r, h1, h2⟩⟩
  | cons b bs ih =>
    intro res v i h
    rcases h with ⟨rfl, rfl, rfl⟩ | ⟨r, rfl, hr, hv, rfl⟩
    · cases b
      · simpa [intExp2Loop, Cfg.bind, Cfg.pure, digitsVal] using ih none 0 1 (.inl ⟨rfl, rfl, rfl⟩)
      · simpa [intExp2Loop, Cfg.bind, Cfg.pure, digitsVal] using
          ih (some x) 1 1 (.inr ⟨x, rfl, hx, by omega, rfl⟩)
    · obtain ⟨c, hc, hR⟩ := hop r r i i hr hr
      cases b
      · have := ih (some c) (2 * i) (i + i) (.inr ⟨c, rfl, by rw [two_mul]; exact hR, by omega, by omega⟩)
        simpa [intExp2Loop, Cfg.bind, Cfg.pure, digitsVal, hc] using this
      · obtain ⟨d, hd, hR'⟩ := hop c x (i + i) 1 hR hx
        have := ih (some d) (2 * i + 1) (i + i + 1) (.inr ⟨d, rfl, by rw [two_mul]; exact hR', by omega, by omega⟩)
        simpa [intExp2Loop, Cfg.bind, Cfg.pure, digitsVal, hc, hd] using this

private theorem allLoop2_rel (R : α → ℕ → Prop) (op : ℕ → α → ℕ → α → Cfg α) (s : Bool)
    (hop : ∀ a b m k, R a m → R b k → ∃ c, op m a k b s = (.ok c, s) ∧ R c (m + k)) :
    ∀ (k : ℕ) (res : List α), 1 ≤ res.length → (∀ i (h : i < res.length), R res[i] (i + 1)) →
      ∃ l, intExpAll2Loop op k res s = (.ok l, s) ∧ l.length = res.length + k ∧
        ∀ i (h : i < l.length), R l[i] (i + 1) := by
  intro k
  induction k with
  | zero => intro res _ h; exact ⟨res, rfl, rfl, h⟩
  | succ k ih =>
    intro res hlen h
    have h₁ : (res.length + 1) / 2 - 1 < res.length := by omega
    have h₂ : res.length + 1 - (res.length + 1) / 2 - 1 < res.length := by omega
    obtain ⟨c, hc, hR⟩ := hop _ _ _ _ (h _ h₁) (h _ h₂)
    obtain ⟨l, e, hl, hall⟩ := ih (res ++ [c]) (by simp) (by
      intro i hi
      simp only [List.length_append, List.length_singleton] at hi
      by_cases hlt : i < res.length
      · rw [List.getElem_append_left hlt]; exact h i hlt
      · have : i = res.length := by omega
        subst this
        simp only [List.getElem_append_right le_rfl, Nat.sub_self, List.getElem_cons_zero]
        convert hR using 1
        omega)
    refine ⟨l, ?_, by rw [hl]; simp; omega, hall⟩
    have e1 : (res.length + 1) / 2 - 1 + 1 = (res.length + 1) / 2 := by omega
    have e2 : res.length + 1 - (res.length + 1) / 2 - 1 + 1 = res.length + 1 - (res.length + 1) / 2 := by omega
    rw [e1, e2] at hc
    simp only [intExpAll2Loop, List.getElem?_eq_getElem h₁, List.getElem?_eq_getElem h₂, Cfg.bind, hc]
    exact e

/-- **C32 (operations with counts).**  Let `R a m` say that `a` is a result for `m` copies.  If the distribution itself is one for
one copy, and the operation, told the right counts, makes a result for `m + k` copies of results for `m` and `k` copies, then
`iid_op2` returns a result for `n` copies, for every `n ≥ 1`, with `all` a list of results for 1 to `n` copies; the setting is
restored. -/
theorem C32_counts (R : α → ℕ → Prop) (op : ℕ → α → ℕ → α → Cfg α) (x : α) (hx : R x 1)
    (hop : ∀ a b m k, R a m → R b k → ∃ c, op m a k b false = (.ok c, false) ∧ R c (m + k)) (n : ℕ) (hn : 1 ≤ n) (s : Bool) :
    (∃ r, iidOp2 op x n s = (.ok (some r), s) ∧ R r n) ∧
    ∃ l, iidOp2All op x n s = (.ok l, s) ∧ l.length = n ∧ ∀ i (h : i < l.length), R l[i] (i + 1) := by
  constructor
  · obtain ⟨res, h₁, h₂⟩ := loop2_rel R op x hx false hop (binDigits n) none 0 1 (.inl ⟨rfl, rfl, rfl⟩)
    rw [digitsVal_bin] at h₂
    rcases h₂ with ⟨_, h⟩ | ⟨r, rfl, h⟩
    · omega
    · refine ⟨r, ?_, h⟩
      simp [iidOp2, intExp2, Cfg.bind, Cfg.getWarn, Cfg.setWarn, Cfg.pure, h₁]
  · obtain ⟨l, h₁, h₂, h₃⟩ := allLoop2_rel R op false hop (n - 1) [x] (by simp) (by
      intro i hi
      simp only [List.length_singleton] at hi
      have : i = 0 := by omega
      subst this; exact hx)
    refine ⟨l, ?_, by rw [h₂]; simp; omega, h₃⟩
    simp [iidOp2All, intExpAll2, if_neg (show ¬ n = 0 by omega), Cfg.bind, Cfg.getWarn, Cfg.setWarn, Cfg.pure, h₁]

/-- What is assumed of the weighted average of two distributions: with the warning switched off it succeeds, and the law of the
result is that of `(m X + k Y) / (m + k)` for independent `X`, `Y`. -/
def AverageLaw (law : α → Measure ℝ) (op : ℕ → α → ℕ → α → Cfg α) : Prop :=
  ∀ m a k b, ∃ c, op m a k b false = (.ok c, false) ∧
    law c = ((law a).prod (law b)).map fun p => ((m : ℝ) * p.1 + (k : ℝ) * p.2) / ((m : ℝ) + (k : ℝ))

/-- **C32 (averages by `iid_op2`).**  With the weighted average as operation the result has the law of the mean of `n`
independent copies. -/
theorem C32_average (law : α → Measure ℝ) (op : ℕ → α → ℕ → α → Cfg α) (hop : AverageLaw law op)
    (x : α) (n : ℕ) (hn : 1 ≤ n) {Ω : Type*} [MeasurableSpace Ω] (P : Measure Ω) [IsProbabilityMeasure P] (X : ℕ → Ω → ℝ)
    (hX : ∀ i, Measurable (X i)) (hind : iIndepFun X P) (hlaw : ∀ i, P.map (X i) = law x) (s : Bool) :
    ∃ r, iidOp2 op x n s = (.ok (some r), s) ∧ law r = P.map fun ω => (∑ i ∈ Finset.range n, X i ω) / (n : ℝ) := by
  have hg : Measurable (Function.uncurry fun a b : ℝ => a + b) := measurable_add
  obtain ⟨r, h1, h2, h3⟩ := (C32_counts (fun a m => 1 ≤ m ∧ ∀ j, law a =
      P.map fun ω => nfold (· + ·) (fun i => X i ω) j (m - 1) / (m : ℝ)) op x ⟨le_rfl, fun j => by
        rw [← hlaw j]; congr 1; ext ω; simp [nfold]⟩ (by
    rintro a b m k ⟨hm, ha⟩ ⟨hk, hb⟩
    obtain ⟨c, h1, h2⟩ := hop m a k b
    refine ⟨c, h1, by omega, fun j => ?_⟩
    have e : m + k - 1 = (m - 1) + (k - 1) + 1 := by omega
    have hA := measurable_nfold hg hX j (m - 1)
    have hB := measurable_nfold hg hX (j + (m - 1 + 1)) (k - 1)
    have hi := (indep_blocks hg hX hind j (m - 1) (k - 1)).comp (φ := fun u => u / (m : ℝ)) (ψ := fun u => u / (k : ℝ))
      (measurable_id.div_const _) (measurable_id.div_const _)
    have hA' := hA.div_const (m : ℝ)
    have hB' := hB.div_const (k : ℝ)
    rw [h2, ha j, hb (j + (m - 1 + 1))]
    have := (indepFun_iff_map_prod_eq_prod_map_map hA'.aemeasurable hB'.aemeasurable).1 hi
    rw [← this, Measure.map_map (by fun_prop) (hA'.prodMk hB')]
    congr 1
    ext ω
    simp only [Function.comp]
    rw [e, nfold_append (· + ·) add_assoc]
    have h1 : (m : ℝ) ≠ 0 := by exact_mod_cast (by omega : m ≠ 0)
    have h2 : (k : ℝ) ≠ 0 := by exact_mod_cast (by omega : k ≠ 0)
    push_cast
    rw [mul_div_cancel₀ _ h1, mul_div_cancel₀ _ h2]) n hn s).1
  refine ⟨r, h1, ?_⟩
  rw [h3 0]
  congr 1
  ext ω
  rw [nfold_add, Nat.sub_add_cancel hn]

/-- averages of numbers: five copies of 3 have the mean 3, and the counts are right -/
example : (iidOp2 (fun m a k b => Cfg.pure (((m : ℚ) * a + k * b) / (m + k))) (3 : ℚ) 5 true).1 = .ok (some 3) ∧
    (iidOp2 (fun m (_ : ℕ) k _ => Cfg.pure (m + k)) 1 13 true).1 = .ok (some 13) ∧
    (iidOp2All (fun m (_ : ℕ) k _ => Cfg.pure (m + k)) 1 6 true).1 = .ok [1, 2, 3, 4, 5, 6] := by
  have h5 : binDigits 5 = [true, false, true] := by simp [binDigits]
  have h13 : binDigits 13 = [true, true, false, true] := by simp [binDigits]
  simp [iidOp2, iidOp2All, intExp2, intExpAll2, h5, h13, intExp2Loop, intExpAll2Loop, Cfg.bind, Cfg.pure, Cfg.getWarn, Cfg.setWarn]
  norm_num

/-- laws of single values: the hypotheses of `C32_average` can be met -/
example : AverageLaw (fun c : ℝ => Measure.dirac c) fun m a k b => Cfg.pure (((m : ℝ) * a + (k : ℝ) * b) / ((m : ℝ) + (k : ℝ))) := by
  intro m a k b
  refine ⟨_, rfl, ?_⟩
  have hm : Measurable fun p : ℝ × ℝ => ((m : ℝ) * p.1 + (k : ℝ) * p.2) / ((m : ℝ) + (k : ℝ)) := by fun_prop
  show Measure.dirac _ = Measure.map _ ((Measure.dirac a).prod (Measure.dirac b))
  rw [Measure.dirac_prod_dirac, Measure.map_dirac' hm]

end Pacal
