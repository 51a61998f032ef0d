import Verif.Standard.Model
import Verif.Base.Err

/-!
Model of the densities of the standard distributions called on arrays and of `log_pdf`
(`/repo/pacal/standard_distr.py`, `/repo/pacal/distr.py`).

* An array is the list of its entries together with the information whether its elements are integers.  Arrays have one
  dimension.
* Arithmetic on arrays is elementwise (numpy).
* Uniform and trapezoidal distributions have no `pdf` of their own; the piecewise functions they use are modelled in
  `Verif/Segments/Model.lean`.
-/

namespace Pacal.Standard
open Real

/-- the value stored when a float is assigned to an entry: arrays of integers truncate towards 0.  (What numpy does with
infinities and NaN in arrays of integers is not modelled: they are kept.) -/
noncomputable def store (int : Bool) : Flt → Flt
  | some v => if int ∧ v ≠ ⊤ ∧ v ≠ ⊥ then
      Flt.real ((if 0 ≤ v.toReal then ⌊v.toReal⌋ else ⌈v.toReal⌉ : ℤ) : ℝ) else some v
  | none => none

/-- the entries of `y` for which `mask` holds of the entry of `x` are replaced by the values in turn -/
noncomputable def place (int : Bool) (mask : ℝ → Bool) : List ℝ → List Flt → List Flt → List Flt
  | x :: xs, y :: ys, vs =>
    if mask x then match vs with
      | v :: vs => store int v :: place int mask xs ys vs
      | [] => y :: place int mask xs ys []
    else y :: place int mask xs ys vs
  | _, _, _ => []

/-- `y[mask] = vs`: numpy raises `ValueError` unless there are as many values as entries, or one value -/
noncomputable def put (int : Bool) (mask : ℝ → Bool) (xs : List ℝ) (ys vs : List Flt) : Except PyErr (List Flt) :=
  let n := (xs.filter mask).length
  if vs.length = n then .ok (place int mask xs ys vs)
  else match vs with
    | [v] => .ok (place int mask xs ys (List.replicate n v))
    | _ => .error .value

/-- `y[mask] = c` for a number `c` -/
noncomputable def putNum (int : Bool) (mask : ℝ → Bool) (xs : List ℝ) (ys : List Flt) (c : Flt) : List Flt :=
  place int mask xs ys (List.replicate (xs.filter mask).length c)

/-- `zeros_like(x)` -/
def zerosLike (xs : List ℝ) : List Flt := xs.map fun _ => Flt.real 0

/-- the pattern `y = zeros_like(x); y[mask] = f(x[mask])` -/
noncomputable def masked (int : Bool) (mask : ℝ → Bool) (f : ℝ → Flt) (xs : List ℝ) : Except PyErr (List Flt) :=
  put int mask xs (zerosLike xs) ((xs.filter mask).map f)

/-- the pattern `y = zeros_like(x); y[mask] = f(x)`: the right hand side is not masked -/
noncomputable def unmasked (int : Bool) (mask : ℝ → Bool) (f : ℝ → Flt) (xs : List ℝ) : Except PyErr (List Flt) :=
  put int mask xs (zerosLike xs) (xs.map f)

open Classical in
/-- `pdf(x)` for an array (standard_distr.py:160-163, 225-226, 275-281, 333-337, 380-386, 423-427, 473-477, 505-509,
532-534, 558-560, 588-592, 630-636, 682-688, 721, 728-732, 760, 767-771, 820-827, 879-883); `none` for distributions that
do not define `pdf`.  `int` says that the entries are integers; `zeros_like(x, dtype=float)` is an array of floats. -/
noncomputable def Kind.pdfArray (E : Env) : Kind → Option (Bool → List ℝ → Except PyErr (List Flt))
  | .normal mu sigma => some fun _ xs => .ok (xs.map fun x => Flt.real (normalPdf mu sigma x))
  | .uniform _ _ => none
  | .trapezoidal _ _ _ _ => none
  | .cauchy g c => some fun _ xs => .ok (xs.map fun x => Flt.real (cauchyPdf g c x))
  | .chiSquare df => some fun _ xs => do
      let y ← masked false (fun x => decide (x > 0)) (fun x => Flt.real (exp (chiSquareLogPdf E.lg df x))) xs
      .ok (putNum false (fun x => decide (x = 0)) xs y (chiSquareAt0 df))
  | .exponential l => some fun int xs =>
      masked int (fun x => decide (x ≥ 0)) (fun x => Flt.real (l * exp (-l * x))) xs
  | .gamma k theta => some fun int xs => do
      let y ← masked int (fun x => decide (x > 0)) (fun x => Flt.real (exp (gammaLogPdf E.lg k theta x))) xs
      .ok (putNum int (fun x => decide (x = 0)) xs y (gammaAt0 k theta))
  | .beta a b => some fun int xs =>
      masked int (fun x => decide (x ≥ 0) && decide (x ≤ 1)) (fun x =>
        Flt.exp (((Flt.real (E.lg (a + b) - E.lg a - E.lg b)).add ((Flt.log x).mul (Flt.real (a - 1)))).add
          ((Flt.log (1 - x)).mul (Flt.real (b - 1))))) xs
  | .pareto a xmin => some fun int xs =>
      masked int (fun x => decide (x ≥ xmin)) (fun x => Flt.real (a * xmin ^ a / x ^ (a + 1))) xs
  | .levy c xmin => some fun int xs =>
      masked int (fun x => decide (x > xmin))
        (fun x => Flt.real (√(c / (2 * π)) * exp (log (x - xmin) * (-1.5) - 0.5 * c / (x - xmin)))) xs
  | .laplace l mu => some fun _ xs => .ok (xs.map fun x => Flt.real (laplacePdf l mu x))
  | .studentT df => some fun _ xs => .ok (xs.map fun x => Flt.real (studentTPdf E.lg df x))
  | .semicircle R => some fun int xs =>
      unmasked int (fun x => decide (-R ≤ x) && decide (x ≤ R))
        (fun x => if 0 ≤ R * R - x * x then Flt.real (2 / (π * R * R) * √(R * R - x * x)) else none) xs
  | .fDistr a b => some fun int xs =>
      let y := putNum int (fun x => decide (x = 0)) xs (zerosLike xs) (fAt0 a)
      put int (fun x => decide (x > 0)) xs y
        ((xs.filter fun x => decide (x > 0)).map fun x => Flt.real (exp (fLogPdf E.lg a b x)))
  | .weibull k l => some fun int xs => do
      let y ← masked int (fun x => decide (x > 0))
        (fun x => Flt.real (k / l * exp (log (x / l) * (k - 1) - (x / l) ^ k))) xs
      .ok (putNum int (fun x => decide (x = 0)) xs y (weibullAt0 k))
  | .gumbel mu s => some fun _ xs =>
      masked false (fun x => decide (1 / s * (mu - x) ≤ E.M))
        (fun x => Flt.real (1 / s * exp (1 / s * (mu - x) - exp (1 / s * (mu - x))))) xs
  | .frechet a s m => some fun int xs =>
      masked int (fun x => decide ((x - m) / s > 0))
        (fun x => Flt.real (a / s * exp (-(a + 1) * log ((x - m) / s) - ((x - m) / s) ^ (-a)))) xs
  | .logLogistic k s => some fun int xs =>
      unmasked int (fun x => decide (x ≥ 0)) (fun x => Flt.exp (logLogisticLogPdf k s x)) xs
  | .mollifier e => some fun int xs =>
      masked int (fun x => decide (|x| < e)) (fun x => Flt.real (mollifierConst / e * exp (-1 / (1 - (x / e) ^ 2)))) xs

/-- `pdf(x)` for a number (the lines of the scalar branches cited at the densities); `none` for distributions that do not
define `pdf` -/
noncomputable def Kind.pdfNumber (E : Env) : Kind → Option (ℝ → Except PyErr Flt)
  | .normal mu sigma => some fun x => .ok (Flt.real (normalPdf mu sigma x))
  | .uniform _ _ => none
  | .trapezoidal _ _ _ _ => none
  | .cauchy g c => some fun x => .ok (Flt.real (cauchyPdf g c x))
  | .chiSquare df => some fun x => .ok (chiSquarePdf E.lg df x)
  | .exponential l => some fun x => .ok (Flt.real (exponentialPdf l x))
  | .gamma k theta => some fun x => .ok (gammaPdf E.lg k theta x)
  | .beta a b => some fun x => .ok (betaPdf E.lg a b x)
  | .pareto a xmin => some fun x => .ok (Flt.real (paretoPdf a xmin x))
  | .levy c xmin => some fun x => .ok (Flt.real (levyPdf c xmin x))
  | .laplace l mu => some fun x => .ok (Flt.real (laplacePdf l mu x))
  | .studentT df => some fun x => .ok (Flt.real (studentTPdf E.lg df x))
  | .semicircle R => some fun x => match semicirclePdf R x with
      | some y => .ok (Flt.real y)
      | none => .error .unbound
  | .fDistr a b => some fun x => .ok (fPdf E.lg a b x)
  | .weibull k l => some fun x => .ok (weibullPdf k l x)
  | .gumbel mu s => some fun x => .ok (Flt.real (gumbelPdf E.M mu s x))
  | .frechet a s m => some fun x => .ok (Flt.real (frechetPdf a s m x))
  | .logLogistic k s => some fun x => .ok (logLogisticPdf k s x)
  | .mollifier e => some fun x => .ok (Flt.real (mollifierPdf e x))

/-! ## `log_pdf` -/

/-- `numpy.log` of a float -/
noncomputable def Flt.logF : Flt → Flt
  | none => none
  | some v => if v = ⊤ then some ⊤ else if v = ⊥ then none else Flt.log v.toReal

/-- `log_pdf(x)` of a number: the closed forms of `ChiSquareDistr` (standard_distr.py:264-266), `GammaDistr`
(standard_distr.py:369-371) and `LogLogisticDistr` (standard_distr.py:814-818), for the others `log(self.pdf(x))`
(distr.py:151-152) -/
noncomputable def Kind.logPdf (E : Env) (d : Kind) : Option (ℝ → Except PyErr Flt) :=
  match d with
  | .chiSquare df => some fun x =>
      .ok ((((Flt.real (df / 2 - 1)).mul (Flt.log x)).add (Flt.real (-(x / 2)))).add
        (Flt.real (-(E.lg (df / 2) + df / 2 * log 2))))
  | .gamma k theta => some fun x =>
      .ok ((((Flt.real (k - 1)).mul (Flt.log x)).add (Flt.real (-(x / theta)))).add
        (Flt.real (-(E.lg k + k * log theta))))
  | .logLogistic k s => some fun x => .ok (logLogisticLogPdf k s x)
  | d => (d.pdfNumber E).map fun f x => (f x).map Flt.logF

end Pacal.Standard
