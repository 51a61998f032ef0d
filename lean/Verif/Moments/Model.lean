import Verif.Conv.Model
import Verif.Law.Model

/-!
Model of the moments of a piecewise distribution (`/repo/pacal/segments.py`: `PiecewiseDistribution.mean`, `meanf`, `var`,
`std`; `/repo/pacal/distr.py`: `Distr.mean`, `meanf`, `moment`, `skewness`, `kurtosis`).

The quadrature is the parameter `q`; it returns a value and an error estimate.  `none` is NaN.  Of the functions passed to
`meanf` it is assumed that they return finite numbers, so that `nan_to_num` is the identity.
-/

namespace Pacal
namespace Moments
open Transform Conv

/-- the variables of the loops: the sum of the integrals, the sum of the error estimates, the sum of their absolute values,
the sum of the absolute values of the integrals -/
structure St where
  I : ℝ
  E : ℝ
  absE : ℝ
  absI : ℝ

/-- one step of the loops: integral of `g` times the piece and error estimate (segments.py:1897-1900, 1916-1919,
1934-1939) -/
noncomputable def term (q : Quad) (p : QPar) (g : ℝ → ℝ) (s : Seg ℝ) : Except PyErr (ℝ × ℝ) :=
  match s with
  | .dirac a m => .ok (m * g a, 0)
  | s => segint q p (fun x => g x * s.call x) (lo s) (hi s) false false s.hasLeftPole s.hasRightPole

/-- the loop over the pieces (segments.py:1896-1902, 1915-1922, 1934-1940).  `mean` and `var` use `E`, `meanf` uses `absE`
and `absI`. -/
noncomputable def loop (q : Quad) (p : QPar) (g : ℝ → ℝ) : PF ℝ → St → Except PyErr St
  | [], st => .ok st
  | s :: l, st =>
    match term q p g s with
    | .ok (i, e) => loop q p g l ⟨st.I + i, st.E + e, st.absE + |e|, st.absI + |i|⟩
    | .error err => .error err

/-- `mean()` (segments.py:1893-1904) -/
noncomputable def mean (q : Quad) (p : QPar) (l : PF ℝ) : Except PyErr (Option ℝ) :=
  (loop q p (fun x => x) l ⟨0, 0, 0, 0⟩).map fun st => if st.E > 1 / 10 then none else some st.I

/-- `meanf(f)` (segments.py:1906-1925) -/
noncomputable def meanf (q : Quad) (p : QPar) (f : ℝ → ℝ) (l : PF ℝ) : Except PyErr (Option ℝ) :=
  (loop q p f l ⟨0, 0, 0, 0⟩).map fun st =>
    if st.absI > 0 ∧ |st.absE / st.absI| > 1 / 10 ^ 3 ∧ |st.absI| > 1 / 10 ^ 10 then none else some st.I

/-- `var()` (segments.py:1930-1943): the pieces with a density first, then the atoms.  If the mean is NaN so is the
variance.  The result `inf` is `⊤`. -/
noncomputable def var (q : Quad) (p : QPar) (l : PF ℝ) : Except PyErr (Option EReal) :=
  (mean q p l).bind fun
    | none => .ok none
    | some m =>
      (loop q p (fun x => (x - m) ^ 2) (PF.segs l) ⟨0, 0, 0, 0⟩).bind fun st =>
      (loop q p (fun x => (x - m) ^ 2) (PF.diracs l) st).map fun st => if st.E > 1 then some ⊤ else some (st.I : EReal)

/-- `std()` (segments.py:1945-1946, distr.py:182-184); the square root of a negative number is NaN -/
noncomputable def std (q : Quad) (p : QPar) (l : PF ℝ) : Except PyErr (Option EReal) :=
  (var q p l).map fun v => v.bind fun v =>
    if v = ⊤ then some ⊤ else if v < 0 then none else some (Real.sqrt v.toReal : EReal)

/-- `moment(k, c)` (distr.py:159-165); `c = none` is the default `None`, the mean.  If the mean is NaN the function to be
averaged is NaN, which `nan_to_num` (segments.py:1917, 1919) turns into 0; but `nan**0` is 1. -/
noncomputable def moment (q : Quad) (p : QPar) (l : PF ℝ) (k : ℕ) (c : Option ℝ) : Except PyErr (Option ℝ) :=
  match c with
  | some c => meanf q p (fun x => (x - c) ^ k) l
  | none => (mean q p l).bind fun
    | none => meanf q p (fun _ => if k = 0 then 1 else 0) l
    | some c => meanf q p (fun x => (x - c) ^ k) l

/-- the quotient of a central moment and a power of the variance (distr.py:166-175); an infinite variance gives 0 (for a
finite moment), a negative one NaN -/
noncomputable def ratio (m : Option ℝ) (v : Option EReal) (e : ℝ) : Option ℝ :=
  m.bind fun m => v.bind fun v => if v = ⊤ then some 0 else if v < 0 then none else some (m / v.toReal ^ e)

/-- `moment(k, mean()) / var()**e`, or NaN if the variance is 0 (distr.py:166-175).  If the mean is NaN so is the variance
and the quotient. -/
noncomputable def standardized (q : Quad) (p : QPar) (l : PF ℝ) (k : ℕ) (e : ℝ) : Except PyErr (Option ℝ) :=
  (var q p l).bind fun v =>
    if v = some 0 then .ok none
    else (mean q p l).bind fun
      | none => .ok none
      | some m => (moment q p l k (some m)).map fun r => ratio r v e

/-- `skewness()` (distr.py:166-170) -/
noncomputable def skewness (q : Quad) (p : QPar) (l : PF ℝ) : Except PyErr (Option ℝ) := standardized q p l 3 (3 / 2)

/-- `kurtosis()` (distr.py:171-175) -/
noncomputable def kurtosis (q : Quad) (p : QPar) (l : PF ℝ) : Except PyErr (Option ℝ) := standardized q p l 4 2

end Moments
end Pacal
