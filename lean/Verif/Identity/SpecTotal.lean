import Verif.Identity.SpecErr
import Verif.Conv.SpecQuad
import Verif.Conv.MinMaxModel
import Verif.Conv.DivLemmas

/-!
Specification for C95: the errors that are committed at every node of an expression, in terms of the quadrature and the interpolation
that are used.
-/

namespace Pacal.Identity
open MeasureTheory Set Conv

variable (M : Machine) (replace : Expr → PF ℝ → PF ℝ)

/-- every integral over a pair of continuous pieces that is needed for the density of a sum at `x` is computed up to `ε x` -/
def SumIntegrals (P : Par) (ε : ℝ → ℝ) (f g : PF ℝ) : Prop :=
  ∀ s ∈ f, ∀ t ∈ g, s.isDirac = false → t.isDirac = false →
    ∀ᵐ x, (∃ u ∈ s.points, ∃ v ∈ t.points, u + v = x) → Approx (ε x) (contSum P x s t) (∫ u, s.val u * t.val (x - u))

/-- the same for a product, after both factors are split at -1, 0 and 1 -/
def ProdIntegrals (P : Par) (ε : ℝ → ℝ) (f g : PF ℝ) : Prop :=
  ∀ s ∈ cut3 f, ∀ t ∈ cut3 g, s.isDirac = false → t.isDirac = false →
    ∀ᵐ x, (∃ u ∈ s.points, ∃ v ∈ t.points, u * v = x) → Approx (ε x) (contProd P x s t) (∫ u, s.val u * t.val (x / u) / |u|)

/-- the same for a quotient -/
def DivIntegrals (P : Par) (arr : Bool) (ε : ℝ → ℝ) (f g : PF ℝ) : Prop :=
  ∀ s ∈ cutD f, ∀ t ∈ cutD g, s.isDirac = false → t.isDirac = false →
    ∀ᵐ x, (∃ u ∈ s.points, ∃ v ∈ t.points, v ≠ 0 ∧ u / v = x) →
      Approx (ε x) (if arr && !decide (|x| < 1) then contDiv2 P x s t else contDiv1 P x s t) (∫ v, s.val (x * v) * t.val v * |v|)

/-- the same for a minimum, after each argument is split at the break points of the other one -/
def MinIntegrals (P : Par) (ε : ℝ → ℝ) (f g : PF ℝ) : Prop :=
  ∀ s ∈ cutAt f g, ∀ t ∈ cutAt g f, s.isDirac = false → t.isDirac = false →
    ∀ᵐ x, (∃ u ∈ s.points, ∃ v ∈ t.points, Min.min u v = x) →
    Approx (ε x) (pairMin P x s t) (t.val x * (s.law).real (Ioi x) + s.val x * (t.law).real (Ioi x))

/-- the same for a maximum -/
def MaxIntegrals (P : Par) (ε : ℝ → ℝ) (f g : PF ℝ) : Prop :=
  ∀ s ∈ cutAt f g, ∀ t ∈ cutAt g f, s.isDirac = false → t.isDirac = false →
    ∀ᵐ x, (∃ u ∈ s.points, ∃ v ∈ t.points, Max.max u v = x) →
    Approx (ε x) (pairMax P x s t) (t.val x * (s.law).real (Iio x) + s.val x * (t.law).real (Iio x))

/-- for the atom of a product at 0: if one factor has an atom at 0, the integrals of the other factor over each of its pieces (split at
-1, 0 and 1) are exact -/
def ProdMasses (P : Par) (f g : PF ℝ) : Prop :=
  (∀ m, Seg.dirac 0 m ∈ f → ∀ t ∈ cut3 g, t.isDirac = false → t.integrate P.q P.qp ⊥ ⊤ = (t.law).real univ) ∧
  ∀ m, Seg.dirac 0 m ∈ g → ∀ t ∈ cut3 f, t.isDirac = false → t.integrate P.q P.qp ⊥ ⊤ = (t.law).real univ

/-- for the atoms of a minimum: the integrals over the tails of one argument that begin at the atoms of the other one are exact -/
def MinTails (P : Par) (f g : PF ℝ) : Prop :=
  (∀ a m, Seg.dirac a m ∈ f → (cutAt g f).integrate P.q P.qp a ⊤ = (PF.law g).real (Ioi a)) ∧
  ∀ a m, Seg.dirac a m ∈ g → (cutAt f g).integrate P.q P.qp a ⊤ = (PF.law f).real (Ioi a)

/-- the same for a maximum -/
def MaxTails (P : Par) (f g : PF ℝ) : Prop :=
  (∀ a m, Seg.dirac a m ∈ f → (cutAt g f).integrate P.q P.qp ⊥ a = (PF.law g).real (Iio a)) ∧
  ∀ a m, Seg.dirac a m ∈ g → (cutAt f g).integrate P.q P.qp ⊥ a = (PF.law f).real (Iio a)

/-- The pieces `r` that are stored for a computed density `r₀` differ from it by at most `η x` at `x`, and are nonnegative. With `n`
integrals for every value, each with the error `ε x`, the area of the total error is at most `δ`. -/
structure Stored (n : ℝ) (ε η : ℝ → ℝ) (δ : ℝ) (r₀ : Option (PF ℝ)) (store : PF ℝ → PF ℝ) : Prop where
  nonneg : ∀ x, 0 ≤ ε x ∧ 0 ≤ η x
  integrable : Integrable ε ∧ Integrable η
  near : ∀ l, r₀ = some l → List.Forall₂ (Near η) l (store l)
  dens : ∀ l, r₀ = some l → PF.Dens (store l)
  area : n * (∫ x, ε x) + ∫ x, η x ≤ δ

/-- At every node of the expression with two arguments the integrals are computed up to some `ε` and the result is stored up to
some `η`, such that the total area of these errors is at most `δ e`. Nothing is interpolated at the other nodes. The
probabilities of the atoms of products, minima and maxima are exact. -/
def Budget (δ : Expr → ℝ) : Expr → Prop
  | .dist k => ∀ l, replace (.dist k) l = l
  | .discrete t => ∀ l, replace (.discrete t) l = l
  | .step s e => Budget δ e ∧ ∀ l, replace (.step s e) l = l
  | .add a b => Budget δ a ∧ Budget δ b ∧ ∀ f g, a.runWith M replace = some f → b.runWith M replace = some g →
      ∃ ε η, SumIntegrals M.par ε f g ∧
        Stored (f.count * g.count) ε η (δ (.add a b)) (conv M.par M.pole f g) (replace (.add a b))
  | .sub a b => Budget δ a ∧ Budget δ b ∧ ∀ f g g', a.runWith M replace = some f → b.runWith M replace = some g →
      g.copyShiftedAndScaled M.par.eps 0 (-1) = some g' →
      ∃ ε η, SumIntegrals M.par ε f g' ∧
        Stored (f.count * g'.count) ε η (δ (.sub a b)) (sub M.par M.pole f g) (replace (.sub a b))
  | .mul a b => Budget δ a ∧ Budget δ b ∧ ∀ f g, a.runWith M replace = some f → b.runWith M replace = some g →
      ProdMasses M.par f g ∧ ∃ ε η, ProdIntegrals M.par ε f g ∧
        Stored ((cut3 f).count * (cut3 g).count) ε η (δ (.mul a b)) (convprod M.par M.pole f g) (replace (.mul a b))
  | .div a b => Budget δ a ∧ Budget δ b ∧ ∀ f g, a.runWith M replace = some f → b.runWith M replace = some g →
      ∃ ε η, DivIntegrals M.par M.arr ε f g ∧
        Stored ((cutD f).count * (cutD g).count) ε η (δ (.div a b)) (convdiv M.par M.neg0 M.arr M.pole f g) (replace (.div a b))
  | .min a b => Budget δ a ∧ Budget δ b ∧ ∀ f g, a.runWith M replace = some f → b.runWith M replace = some g →
      MinTails M.par f g ∧ ∃ ε η, MinIntegrals M.par ε f g ∧
        Stored ((cutAt f g).count * (cutAt g f).count) ε η (δ (.min a b)) (convmin M.par f g) (replace (.min a b))
  | .max a b => Budget δ a ∧ Budget δ b ∧ ∀ f g, a.runWith M replace = some f → b.runWith M replace = some g →
      MaxTails M.par f g ∧ ∃ ε η, MaxIntegrals M.par ε f g ∧
        Stored ((cutAt f g).count * (cutAt g f).count) ε η (δ (.max a b)) (convmax M.par f g) (replace (.max a b))

/-- as `MachineOK`, but nothing is assumed of the quadrature -/
structure ArithmeticOK : Prop where
  eps : 0 ≤ M.env.eps
  same : M.par.eps = M.env.eps
  brk : 0 ≤ M.par.brkEps
  lg : ∀ x, 0 < x → M.env.lg x = Real.log (Real.Gamma x)

end Pacal.Identity
