import Verif.Sample.LemLaw
import Verif.Conv.PropsSum
import Verif.Conv.PropsProd
import Verif.Conv.PropsDiv
import Verif.Conv.PropsMinMax

/-!
# Property C107, the law of the samples

Samples of an operation on independent distributions follow the law of the density computed for it; `samples X ω` is the array
of the numbers `X j ω` (`LemLaw`).
-/

namespace Pacal.Sample
open MeasureTheory ProbabilityTheory Conv

variable {Ω : Type*} [MeasurableSpace Ω] {p : Measure Ω} [IsProbabilityMeasure p] {n : ℕ} {X Y : Fin n → Ω → ℝ} {P : Par} {f g : PF ℝ}

/-- **C107, law of the samples of `X + Y`, `X * Y`, `X / Y`, `min(X, Y)`, `max(X, Y)`** (partial: exact quadrature, and the conditions of
C12 – C15 on the two densities).  If the samples of the arguments are independent and follow the densities of the arguments, every
sample of the result follows the density computed for the result. -/
theorem C107_law_partial (hX : ∀ j, Measurable (X j)) (hY : ∀ j, Measurable (Y j)) (hi : ∀ j, IndepFun (X j) (Y j) p)
    (hf : ∀ j, p.map (X j) = PF.law f) (hg : ∀ j, p.map (Y j) = PF.law g) (hP : ExactQ P.q P.qp) (hfd : PF.Dens f) (hgd : PF.Dens g)
    (neg0 arr : Bool) (pole : ℝ → ℝ → Pole) :
    (SumArgs P f g → ∃ r, conv P pole f g = some r ∧
      ∀ j : Fin n, p.map (fun ω => (Op2.sum.rand (samples X ω) (samples Y ω)).getD j 0) = PF.law r) ∧
    (ProdArgs P f g → ∃ r, convprod P pole f g = some r ∧
      ∀ j : Fin n, p.map (fun ω => (Op2.mul.rand (samples X ω) (samples Y ω)).getD j 0) = PF.law r) ∧
    (DivArgs P f g → ∃ r, convdiv P neg0 arr pole f g = some r ∧
      ∀ j : Fin n, p.map (fun ω => (Op2.div.rand (samples X ω) (samples Y ω)).getD j 0) = PF.law r) ∧
    (MMArgs P f g → ∃ r, convmin P f g = some r ∧
      ∀ j : Fin n, p.map (fun ω => (Op2.min.rand (samples X ω) (samples Y ω)).getD j 0) = PF.law r) ∧
    (MMArgs P f g → ∃ r, convmax P f g = some r ∧
      ∀ j : Fin n, p.map (fun ω => (Op2.max.rand (samples X ω) (samples Y ω)).getD j 0) = PF.law r) := by
  have key (o : Op2) (j : Fin n) : p.map (fun ω => (o.rand (samples X ω) (samples Y ω)).getD j 0) = opLaw o.fn (PF.law f) (PF.law g) := by
    rw [sample_law o p hX hY hi j, hf, hg]
  refine ⟨fun h => ?_, fun h => ?_, fun h => ?_, fun h => ?_, fun h => ?_⟩
  · obtain ⟨r, h1, -, -, h2⟩ := C12_law_partial h hP hfd hgd pole
    exact ⟨r, h1, fun j => (key .sum j).trans h2.symm⟩
  · obtain ⟨r, h1, -, -, h2⟩ := C13_law_partial h hP hfd hgd pole
    exact ⟨r, h1, fun j => (key .mul j).trans h2.symm⟩
  · obtain ⟨r, h1, -, -, h2⟩ := C14_law_partial h hP hfd hgd neg0 arr pole
    exact ⟨r, h1, fun j => (key .div j).trans h2.symm⟩
  · obtain ⟨r, h1, -, -, h2⟩ := C15_min_law_partial h hP hfd hgd
    exact ⟨r, h1, fun j => (key .min j).trans h2.symm⟩
  · obtain ⟨r, h1, -, -, h2⟩ := C15_max_law_partial h hP hfd hgd
    exact ⟨r, h1, fun j => (key .max j).trans h2.symm⟩

/-- **C107, law of the samples of `X - Y`** (partial, as above with the conditions of C12 for differences) -/
theorem C107_law_sub_partial (hX : ∀ j, Measurable (X j)) (hY : ∀ j, Measurable (Y j)) (hi : ∀ j, IndepFun (X j) (Y j) p)
    (hf : ∀ j, p.map (X j) = PF.law f) (hg : ∀ j, p.map (Y j) = PF.law g) (hP : ExactQ P.q P.qp) (hfd : PF.Dens f) (hgd : PF.Dens g)
    (h1 : 0 ≤ P.eps) (h2 : 0 ≤ P.brkEps) (hf0 : f ≠ []) (hg0 : g ≠ []) (hfw : PF.WF P.eps f) (hgw : PF.WF P.eps g) (hfh : f.NoHole)
    (hgh : g.NoHoleRight) (hap : Apart (· - ·) (max P.brkEps P.eps) f g) (pole : ℝ → ℝ → Pole) :
    ∃ r, sub P pole f g = some r ∧
      ∀ j : Fin n, p.map (fun ω => (Op2.sub.rand (samples X ω) (samples Y ω)).getD j 0) = PF.law r := by
  obtain ⟨r, r1, -, -, r2⟩ := C12_sub_partial hP h1 h2 hf0 hg0 hfw hgw hfh hgh hap hfd hgd pole
  refine ⟨r, r1, fun j => ?_⟩
  rw [sample_law .sub p hX hY hi j, hf, hg, r2]
  rfl

/-- two samples of a sum of independent variables, each uniform on `[0, 1]` or 0 with probability 1/2, on the product space -/
example : ∃ r, conv exPar (fun _ _ => .none) halfAtom halfAtom = some r ∧ ∀ j : Fin 2,
    ((PF.law halfAtom).prod (PF.law halfAtom)).map
      (fun ω => (Op2.sum.rand (samples (fun _ : Fin 2 => Prod.fst) ω) (samples (fun _ : Fin 2 => Prod.snd) ω)).getD j 0) = PF.law r := by
  have hp : IsProbabilityMeasure (PF.law halfAtom) := by
    have := PF.law_finite halfAtom_dens
    have h : (PF.law halfAtom).real Set.univ = 1 := by
      unfold halfAtom
      rw [law_pair halfAtom_dens, const_mass _ _ (by norm_num) (by norm_num), Seg.law_real_dirac (by norm_num) MeasurableSet.univ]
      norm_num
    exact ⟨by rw [← ENNReal.toReal_eq_one_iff]; exact h⟩
  exact (C107_law_partial (p := (PF.law halfAtom).prod (PF.law halfAtom)) (fun _ => measurable_fst) (fun _ => measurable_snd)
    (fun _ => by
      rw [indepFun_iff_map_prod_eq_prod_map_map measurable_fst.aemeasurable measurable_snd.aemeasurable, Measure.map_fst_prod,
        Measure.map_snd_prod]
      simp)
    (fun _ => by simp [Measure.map_fst_prod]) (fun _ => by simp [Measure.map_snd_prod]) exPar_exact halfAtom_dens halfAtom_dens false
    false fun _ _ => .none).1 halfAtom_args

end Pacal.Sample
