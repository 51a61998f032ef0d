import Verif.Gamma.Lemmas
import Verif.Gamma.Mid

/-!
The log-gamma routine (C54).
-/

namespace Pacal.Gamma

/-- **C54**: if the two approximations are right up to `ε` and the constant up to `δ`, the routine is right up to `ε + δ`:
shifting the argument down or up into `[2, 3)`, the shortcut at 2 and the reflection of negative arguments add no error. -/
theorem C54_value {A : Approx} {ε δ : ℝ} (hA : A.Good ε δ) {fuel : ℕ} (hf : 40 ≤ fuel) {x : ℝ} (hx : |x| ≤ maxlgm)
    (hp : ¬Pole x) : Returns (lgamma A fuel (.fin x)) (logAbsGamma x) (ε + δ) :=
  value_at ((abs_nonneg _).trans (hA.mid (5 / 2) (by norm_num) (by norm_num))) hf hA.mid
    (fun h => hA.big _ h hx) hA.logpi hx hp

/-- **C54**: the result is infinite exactly at the poles. -/
theorem C54_poles {A : Approx} {ε δ : ℝ} (hA : A.Good ε δ) {fuel : ℕ} (hf : 40 ≤ fuel) {x : ℝ} (hx : |x| ≤ maxlgm) :
    lgamma A fuel (.fin x) = some .pinf ↔ Pole x := by
  refine ⟨fun h => ?_, pole_at A hf hx⟩
  by_contra hp
  obtain ⟨v, hv, _⟩ := C54_value hA hf hx hp
  rw [h] at hv
  cases hv

/-- **C54**: the special values: not-a-number stays, both infinities give plus infinity, as does an argument whose result
would overflow. -/
theorem C54_special (A : Approx) (fuel : ℕ) :
    lgamma A fuel .nan = some .nan ∧ lgamma A fuel .pinf = some .pinf ∧ lgamma A fuel .ninf = some .pinf ∧
      ∀ x, maxlgm < x → 1 ≤ fuel → lgamma A fuel (.fin x) = some .pinf := by
  refine ⟨rfl, rfl, rfl, fun x hx hf => ?_⟩
  obtain ⟨n, rfl⟩ : ∃ n, fuel = n + 1 := ⟨fuel - 1, by omega⟩
  have h13 : (13 : ℝ) < maxlgm := by
    rw [maxlgm]
    norm_num
  rw [lgamma, lgammaFin, if_neg (by linarith), if_neg (by linarith), if_pos hx]

/-- **C54**: the polynomial evaluation is the polynomial with the given coefficients, highest power first. -/
theorem C54_polevl (x : ℝ) (coef : List ℝ) (N : ℕ) (h : N < coef.length) :
    polevl x coef N = some (∑ i ∈ Finset.range (N + 1), coef.getD i 0 * x ^ (N - i)) :=
  polevl_foldl x coef N h

/-- **C54**: the routine's own approximations and constant are right up to `8.4e-10` and `1e-14`. -/
theorem C54_code_good : code.Good 8.4e-10 1e-14 where
  mid u h2 h3 := by
    rw [logAbsGamma_pos (by linarith)]
    refine (codeMid_close h2.le h3.le).trans ?_
    norm_num
  big x h13 hx := by
    rw [logAbsGamma_pos (by linarith)]
    by_cases h8 : x ≤ 1.0e8
    · refine (codeBig_close h13 h8).trans ?_
      norm_num
    · exact codeBig_close' (not_le.1 h8)
  logpi := logPi_close

/-- **C54**: in exact arithmetic the routine as it stands is within `1e-9` of `log |Γ|` for every argument that is not a pole
and not beyond the overflow limit. -/
theorem C54_accuracy {fuel : ℕ} (hf : 40 ≤ fuel) {x : ℝ} (hx : |x| ≤ maxlgm) (hp : ¬Pole x) :
    Returns (lgamma code fuel (.fin x)) (logAbsGamma x) 1e-9 := by
  obtain ⟨v, hv, h⟩ := C54_value C54_code_good hf hx hp
  refine ⟨v, hv, h.trans ?_⟩
  norm_num

/-- **C54**: below `1e8` it is within `1.1e-10`. -/
theorem C54_accuracy_moderate {fuel : ℕ} (hf : 40 ≤ fuel) {x : ℝ} (hx : |x| ≤ 1.0e8) (hp : ¬Pole x) :
    Returns (lgamma code fuel (.fin x)) (logAbsGamma x) 1.1e-10 := by
  have hmax : |x| ≤ maxlgm := hx.trans (by rw [maxlgm]; norm_num)
  obtain ⟨v, hv, h⟩ := value_at (A := code) (ε := 1e-10) (δ := 1e-14) (by norm_num) hf
    (fun u h2 h3 => by rw [logAbsGamma_pos (by linarith)]; exact codeMid_close h2.le h3.le)
    (fun h => by
      rw [logAbsGamma_pos (by linarith)]
      refine (codeBig_close h hx).trans ?_
      norm_num)
    logPi_close hmax hp
  refine ⟨v, hv, h.trans ?_⟩
  norm_num

/-- **C54**: so the routine as it stands is infinite exactly at the poles. -/
theorem C54_code_poles {fuel : ℕ} (hf : 40 ≤ fuel) {x : ℝ} (hx : |x| ≤ maxlgm) :
    lgamma code fuel (.fin x) = some .pinf ↔ Pole x :=
  C54_poles C54_code_good hf hx

/-! ### the hypotheses are met -/

/-- exact numerical parts are good with no error -/
example : (⟨fun t => logAbsGamma (2 + t), logAbsGamma, Real.log Real.pi⟩ : Approx).Good 0 0 where
  mid u _ _ := by simp
  big x _ _ := by simp
  logpi := by simp

/-- a half is no pole; there the routine is near `log √π` -/
example : Returns (lgamma code 40 (.fin (1 / 2))) (Real.log (√Real.pi)) 1.1e-10 := by
  have h := C54_accuracy_moderate (fuel := 40) le_rfl (x := 1 / 2) (by rw [abs_of_pos (by norm_num)]; norm_num)
    (not_pole_of_pos (by norm_num))
  rwa [logAbsGamma_pos (by norm_num), Real.Gamma_one_half_eq] at h

/-- -50 is a pole, beyond the reflection limit -/
example : lgamma code 40 (.fin (-50)) = some .pinf :=
  (C54_code_poles le_rfl (by rw [maxlgm, abs_of_neg (by norm_num)]; norm_num)).2 ⟨50, by norm_num⟩

/-- coefficients 2, 3, 5 give `2 x² + 3 x + 5` -/
example (x : ℝ) : polevl x [2, 3, 5] 2 = some (2 * x ^ 2 + 3 * x + 5) := by
  rw [C54_polevl x [2, 3, 5] 2 (by norm_num)]
  simp [Finset.sum_range_succ]

end Pacal.Gamma
