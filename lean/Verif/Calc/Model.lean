import Verif.Nodes.Model
import Verif.Rule.Model
import Mathlib.LinearAlgebra.Matrix.Defs

/-!
Model of the calculus on interpolated functions: the Chebyshev transforms (`/repo/pacal/utils.py:172-191`), the
companion matrix and the roots of a Chebyshev series (`/repo/pacal/utils.py:215-228`), and the methods `diff`,
`roots` and `trim` of the interpolators (`/repo/pacal/interpolation.py:151-190, 257-267`).

Numbers are real (exact arithmetic). `numpy.fft.fft`, `numpy.fft.ifft` are their documented formulas;
`numpy.linalg.eigvals` is a parameter.
-/

namespace Pacal
namespace Calc
open Nodes

/-- the state of a `BarycentricInterpolator` (interpolation.py:85-92) -/
structure Bary where
  xs : List ℝ
  ys : List ℝ
  ws : List ℝ

/-- `interp_at` at one point (interpolation.py:108-112, with the compiled routine) -/
noncomputable def Bary.at (I : Bary) (x : ℝ) : Except PyErr ℝ := bary I.xs I.ys I.ws x

/-- `np.real(fft(u))`: the real part of the discrete Fourier transform `A_k = sum(u_j * exp(-2*pi*i*j*k/n))`
(numpy's documented definition) -/
noncomputable def fftReal (u : List ℝ) : List ℝ :=
  (List.range u.length).map fun k : ℕ =>
    ((u.zipIdx.map fun p =>
      (p.1 : ℂ) * Complex.exp (-(2 * Real.pi * Complex.I * (p.2 : ℂ) * (k : ℂ) / (u.length : ℂ)))).sum).re

/-- `chebt2(f)` (utils.py:172-182). The slices: `f[-1::-1]` is the reversed array, `f[1:-1]` drops both ends;
`fftcoef[n-1:0:-1] += fftcoef[n-1:]` adds the entry `n-1+k` to the entry `n-1-k` for `k = 0, …, n-2` (numpy reads
overlapping operands before writing), and the result `fftcoef[n-1::-1]` is the entries `n-1, …, 0`. For fewer than
two values the code divides by zero or transforms an empty array; an error value here. -/
noncomputable def chebt2 (f : List ℝ) : Except PyErr (List ℝ) :=
  let n := f.length
  if n < 2 then .error .value
  else
    let oncircle := f.reverse ++ f.tail.dropLast
    let fftcoef := (fftReal oncircle).map (· / (2 * (n : ℝ) - 2))
    let added := (List.range fftcoef.length).map fun i =>
      if 1 ≤ i ∧ i ≤ n - 1 then fftcoef.getD i 0 + fftcoef.getD (n - 1 + (n - 1 - i)) 0 else fftcoef.getD i 0
    .ok ((added.take n).reverse)

/-- `ichebt2(c)` (utils.py:184-191). `c[-2:0:-1]` is the reversed inner part of `c`, `c[0:-1]` drops the last entry,
`v[1:n-1]` are the entries `1, …, n-2` and `v[-1:n-1:-1]` the entries from the last one down to `n`. -/
noncomputable def ichebt2 (c : List ℝ) : Except PyErr (List ℝ) :=
  match c.getLast? with
  | none => .error .index
  | some c0 =>
    let n := c.length
    let oncircle := c0 :: (c.tail.dropLast.reverse.map (· / 2) ++ c.dropLast.map (· / 2))
    let v := Rule.ifftReal oncircle
    .ok ((2 * v.getD 0 0 :: (List.zipWith (· + ·) ((v.take (n - 1)).drop 1) (v.drop n).reverse
      ++ [2 * v.getD (n - 1) 0])).map fun t => ((n : ℝ) - 1) * t)

/-- the slice `v[p::2]` -/
def stride (p : ℕ) (v : List ℝ) : List ℝ := ((v.zipIdx.filter fun q => q.2 % 2 = p).map Prod.fst)

/-- the entry `k` of `cumsum(v)` -/
def cumsum (v : List ℝ) (k : ℕ) : ℝ := (v.take (k + 1)).sum

/-- the coefficients of the derivative (interpolation.py:154-160): `v` is two zeros followed by
`2 * arange(n-1, 0, -1) * c[0:-1]`, the even and the odd entries are accumulated separately, the last one is halved
and the first two are dropped -/
noncomputable def diffCoef (c : List ℝ) : List ℝ :=
  let n := c.length
  let v := 0 :: 0 :: (c.dropLast.zipIdx.map fun p => 2 * ((n - 1 - p.2 : ℕ) : ℝ) * p.1)
  let cdiff := (List.range (n + 1)).map fun i => cumsum (stride (i % 2) v) (i / 2)
  (cdiff.modify n (1 / 2 * ·)).drop 2

/-- `chebspace(a, b, n, returnWeights=True)` with the values `ys` (utils.py:116-129) -/
noncomputable def onCheb (a b : ℝ) (ys : List ℝ) : Bary :=
  ⟨cheb ys.length a b, ys, chebWeights ys.length⟩

/-- `BarycentricInterpolator.diff(use_2nd=True)` (interpolation.py:151-165); `Xs[0]`, `Xs[-1]` of an interpolator
without nodes are an `IndexError` -/
noncomputable def diff2 (I : Bary) : Except PyErr Bary := do
  let c ← chebt2 I.ys
  match I.xs.head?, I.xs.getLast? with
  | some x0, some x1 =>
    let v ← ichebt2 (diffCoef c)
    let d := (v.map (· / ((x1 - x0) * (1 / 2)))).reverse
    .ok (onCheb x0 x1 d)
  | _, _ => .error .index

/-- `BarycentricInterpolator.diff(use_2nd=False)` (interpolation.py:166-169): the interpolant is sampled on a
Chebyshev grid with two nodes more -/
noncomputable def diff1 (I : Bary) : Except PyErr Bary :=
  match I.xs.head?, I.xs.getLast? with
  | some x0, some x1 => do
    let ys ← (cheb (I.xs.length + 2) x0 x1).mapM I.at
    diff2 (onCheb x0 x1 ys)
  | _, _ => .error .index

/-- `cheb1companion(c)` (utils.py:215-226) for `n - 1 ≥ 2` rows: the first row, the inner rows, and the last row with
its correction. With fewer rows `CT[0,1] = 1` is an `IndexError`, and a vanishing last coefficient puts infinite
or undefined numbers in the last row, which `eigvals` refuses (`LinAlgError`); see `chebroots`. -/
noncomputable def companion (c : List ℝ) (m : ℕ) : Matrix (Fin m) (Fin m) ℝ := fun i j =>
  if i.val = m - 1 then
    -(1 / 2) * c.getD j.val 0 / c.getD m 0 + (if j.val = m - 2 then 1 / 2 else 0)
  else if i.val = 0 then (if j.val = 1 then 1 else 0)
  else if j.val + 1 = i.val ∨ j.val = i.val + 1 then 1 / 2 else 0

/-- error code for numpy's `LinAlgError` -/
def linAlgErr : PyErr := .op 1

/-- `chebroots(c)` (utils.py:227-228); `eig` is `numpy.linalg.eigvals`. The order of the eigenvalues is left to
`eig`: sorting is not modelled, the theorems do not depend on the order. -/
noncomputable def chebroots (eig : (m : ℕ) → Matrix (Fin m) (Fin m) ℝ → List ℂ) (c : List ℝ) :
    Except PyErr (List ℂ) :=
  let m := c.length - 1
  if m < 2 then .error .index
  else if c.getD m 0 = 0 then .error linAlgErr
  else .ok (eig m (companion c m))

/-- the selection of real roots in the interval and their transport to it (interpolation.py:175-179) -/
noncomputable def keep (abstol x0 x1 : ℝ) (r : List ℂ) : List ℝ :=
  (((r.filter fun z => |z.im| < abstol).map Complex.re).filter fun x => -1 < x ∧ x < 1).map fun x =>
    (x * (x1 - x0) + (x0 + x1)) * (1 / 2)

/-- `BarycentricInterpolator.roots(use_2nd=True)` (interpolation.py:171-179) -/
noncomputable def roots2 (eig : (m : ℕ) → Matrix (Fin m) (Fin m) ℝ → List ℂ) (abstol : ℝ) (I : Bary) :
    Except PyErr (List ℝ) := do
  let c ← chebt2 I.ys
  let r ← chebroots eig c.reverse
  match I.xs.head?, I.xs.getLast? with
  | some x0, some x1 => .ok (keep abstol x0 x1 r)
  | _, _ => .error .index

/-- `BarycentricInterpolator.roots(use_2nd=False)` (interpolation.py:180-188); `n` is the attribute `self.n` set by
the adaptive loop (for `ChebyshevInterpolatorNoL/NoR` one more than the number of nodes) -/
noncomputable def roots1 (eig : (m : ℕ) → Matrix (Fin m) (Fin m) ℝ → List ℂ) (abstol : ℝ) (n : ℕ) (I : Bary) :
    Except PyErr (List ℝ) :=
  match I.xs.head?, I.xs.getLast? with
  | some x0, some x1 => do
    let ys ← (cheb n x0 x1).mapM I.at
    let c ← chebt2 ys
    let r ← chebroots eig c.reverse
    .ok (keep abstol x0 x1 r)
  | _, _ => .error .index

/-- the loop `while c[0] < abstol: c = c[1:]` of `trim` (interpolation.py:261-262) -/
noncomputable def trimLoop (abstol : ℝ) : List ℝ → Except PyErr (List ℝ)
  | [] => .error .index
  | c :: cs => if c < abstol then trimLoop abstol cs else .ok (c :: cs)

/-- `ChebyshevInterpolator.trim(abstol)` on `[a, b]` (interpolation.py:257-267) -/
noncomputable def trim (abstol a b : ℝ) (I : Bary) : Except PyErr Bary := do
  let c ← chebt2 I.ys
  let c ← trimLoop abstol c
  let v ← ichebt2 c
  .ok (onCheb a b v.reverse)

end Calc
end Pacal
