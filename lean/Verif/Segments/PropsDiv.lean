import Verif.Segments.Div
import Verif.Segments.PropsSplit

/-! # C06, quotients -/

namespace Pacal
variable {K : Type*} [Field K] [LinearOrder K] [IsStrictOrderedRing K]

/-- **C06 for `/`, partial** (atoms in one operand keep their mass, as for differences and products).  The quotient exists, and
at every point where the divisor is not 0 it is the quotient of the values; an atom of both functions gets the quotient
of the masses. -/
theorem C06_div_partial {eps : K} (he : 0 ≤ eps) (f g : PF K) (hf : PF.WF eps f) (hg : PF.WF eps g)
    (hfg : PF.AtomsApart eps f g) :
    ∃ r, PF.truediv eps f (.pf g) = .ok r ∧ PF.WF eps r ∧
      (∀ x, g.val x ≠ 0 → r.val x * g.val x = f.val x) ∧
      (∀ x m m', .dirac x m ∈ f → .dirac x m' ∈ g → m' ≠ 0 → r.massAt x * m' = m) := by
  obtain ⟨r, h₁, h₂, h₃, h₄, -⟩ := C06_operation_partial he (op := fun x y : K => x / y) (by simp) f g hf hg hfg
  refine ⟨r, ?_, h₂, fun x hx => ?_, fun x m m' hm hm' h0 => ?_⟩
  · simp only [PF.truediv, Operand.function, Bind.bind, Except.bind, h₁]
  · rw [h₃ x]; exact div_mul_cancel₀ _ hx
  · rw [h₄ x m m' hm hm']; exact div_mul_cancel₀ _ h0

/-- **C06, number divided by function.**  At a covered point where the function is not 0 the value is the quotient, elsewhere it
stays 0. -/
theorem C06_rdiv {eps : K} (he : 0 ≤ eps) (l : PF K) (hl : PF.WF eps l) (r : K) :
    ∃ q, PF.rdivReal eps l r = some q ∧ PF.WF eps q ∧
      (∀ x, l.val x ≠ 0 → q.val x * l.val x = r) ∧
      (∀ x, (¬ ∃ s ∈ l, s.isDirac = false ∧ s.lo ≤ .fin x ∧ .fin x < s.hi) → q.val x = 0) ∧
      (∀ x m, .dirac x m ∈ l → m ≠ 0 → q.massAt x * m = r) := by
  obtain ⟨q, h₁, h₂, h₃, h₄, h₅, -⟩ := C06_roperation he (fun x y : K => y / x) l hl r
  refine ⟨q, h₁, h₂, fun x hx => ?_, h₄, fun x m hm h0 => ?_⟩
  · by_cases hc : ∃ s ∈ l, s.isDirac = false ∧ s.lo ≤ .fin x ∧ .fin x < s.hi
    · rw [h₃ x hc]; exact div_mul_cancel₀ _ hx
    · exact absurd (val_eq_zero (l := l) fun s hs hd h => hc ⟨s, hs, hd, h⟩) hx
  · rw [h₅ x m hm]; exact div_mul_cancel₀ _ h0

/-- **C06, finding.** `f / r` for a number `r` always fails: `__truediv__` treats the number as a piecewise function
(segments.py:1592-1593), and `AttributeError` is raised. -/
theorem C06_violated_div_real (eps : K) (f : PF K) (r : K) : PF.truediv eps f (.num r) = .error .attribute := rfl

/-- **C06, finding.** An atom of the divisor only: the quotient `0 / g` keeps the mass of the atom instead of 0
(segments.py:1664-1665). -/
theorem C06_violated_div : PF.truediv (1/100 : ℚ) [] (.pf [.dirac 0 1]) = .ok [.dirac 0 1] := rfl

/-- the hypotheses of the quotient are met, and the value is the one expected -/
example : ∃ r, PF.truediv (1/100 : ℚ) [.const 0 2 6, .dirac 2 1] (.pf [.const 1 3 2, .dirac 2 (1/2)]) = .ok r ∧
    r.val (3/2) = 3 ∧ r.massAt 2 = 2 := by
  refine ⟨_, rfl, ?_, ?_⟩ <;> decide +kernel

/-- the number 6 divided by the function that is 2 on [0, 1) -/
example : ∃ q, PF.rdivReal (1/100 : ℚ) [.const 0 1 2] 6 = some q ∧ q.val (1/2) = 3 ∧ q.val 2 = 0 := by
  refine ⟨_, rfl, ?_, ?_⟩ <;> decide +kernel

end Pacal
