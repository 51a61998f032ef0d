import Verif.NDim.Model
import Mathlib.LinearAlgebra.Matrix.NonsingularInverse
import Mathlib.Analysis.SpecialFunctions.Sqrt
import Mathlib.Analysis.SpecialFunctions.Trigonometric.Basic

/-!
Model of `NDNormalDistr` (`/repo/pacal/depvars/nddistr.py:511-559`).

Simplifications.  Vectors and matrices are lists and lists of rows, with the broadcasting and the shape errors of numpy for
the shapes that occur; numbers are exact.  `Sigma.I` raises for matrices whose determinant is 0.  The pseudo inverse, which
`.I` computes for a matrix that is not square, is a parameter.  The methods get the variables, not their numbers.
-/

namespace Pacal.NDNormal
open Pacal.NDim

/-- exceptions: an unknown variable, `AssertionError`, `IndexError`, `ValueError`, `LinAlgError` -/
inductive GErr
  | badIndex | assertion | index | value | linalg
  deriving DecidableEq

/-- a multivariate normal distribution: variables, means, rows of the covariance matrix -/
structure Normal (V K : Type) where
  vars : List V
  mu : List K
  Sigma : List (List K)

/-- results of the methods: `NDOneFactor()` or a normal distribution -/
inductive GRes (V K : Type)
  | one
  | normal (N : Normal V K)

variable {V K : Type} [Field K] [DecidableEq K] [DecidableEq V]

/-- `S[i, j]` -/
def entry (S : List (List K)) (i j : ℕ) : K := (S.getD i []).getD j 0

/-- the matrix of the rows -/
def toMatrix (d : ℕ) (S : List (List K)) : Matrix (Fin d) (Fin d) K := Matrix.of fun i j => entry S i j

/-- `NDNormalDistr.__init__` (nddistr.py:512-528), with given variables: the shapes are checked and the inverse is computed -/
def make (vars : List V) (mu : List K) (Sigma : List (List K)) : Except GErr (Normal V K) :=
  if Sigma.length = mu.length ∧ ∀ r ∈ Sigma, r.length = mu.length then
    if (toMatrix mu.length Sigma).det = 0 then .error .linalg else .ok ⟨vars, mu, Sigma⟩
  else .error .assertion

/-- means and standard deviations of the variables made when none are given: `NormalDistr(mu[i], Sigma[i,i])`
(nddistr.py:519-520) -/
def defaultVars (mu : List K) (Sigma : List (List K)) : List (K × K) :=
  (List.range mu.length).map fun i => (mu.getD i 0, entry Sigma i i)

/-- `numpy.delete(l, idx)` -/
def delete {α : Type} (l : List α) (idx : List ℕ) : List α := (l.zipIdx.filter fun p => decide (p.2 ∉ idx)).map Prod.fst

/-- `[l[i] for i in idx]` and `l[idx]` for valid numbers -/
def takeIdx {α : Type} (l : List α) (idx : List ℕ) : List α := idx.filterMap fun i => l[i]?

/-- `prepare_var` (nddistr.py:106-113): numbers of the given and of the other variables -/
def prepare (vars vs : List V) : Except GErr (List ℕ × List ℕ) :=
  match prepareVar vars vs with
  | .ok idx => .ok (idx, (List.range vars.length).filter fun i => decide (i ∉ idx))
  | .error _ => .error .badIndex

/-- `NDNormalDistr.eliminate` (nddistr.py:540-547) -/
def eliminate (N : Normal V K) (var : List V) : Except GErr (GRes V K) := do
  let p ← prepare N.vars var
  let mu := delete N.mu p.1
  let Sigma := (delete N.Sigma p.1).map fun r => delete r p.1
  if mu = [] then .ok .one
  else do
    let M ← make (takeIdx N.vars p.2) mu Sigma
    .ok (.normal M)

/-- `S[r, c]` for two lists of numbers: pairs of numbers, one list is repeated if it has a single element; the result is a
matrix with one row -/
def fancy (S : List (List K)) (r c : List ℕ) : Except GErr (List K) :=
  if r.length = c.length then .ok (List.zipWith (entry S) r c)
  else match r, c with
    | _, [j] => .ok (r.map fun i => entry S i j)
    | [i], _ => .ok (c.map fun j => entry S i j)
    | _, _ => .error .index

/-- `.I` of a matrix with one row: the inverse, or the pseudo inverse, which has one column -/
def invRow (pinv : List K → List K) (s : List K) : Except GErr (List K) :=
  match s with
  | [a] => if a = 0 then .error .linalg else .ok [1 / a]
  | _ => .ok (pinv s)

/-- a row times a column -/
def rowCol (r c : List K) : Except GErr K :=
  if r.length = c.length then .ok (List.zipWith (· * ·) r c).sum else .error .value

/-- elementwise operations, with broadcasting -/
def bcast (op : K → K → K) (l m : List K) : Except GErr (List K) :=
  if l.length = m.length then .ok (List.zipWith op l m)
  else match l, m with
    | _, [b] => .ok (l.map fun a => op a b)
    | [a], _ => .ok (m.map fun b => op a b)
    | _, _ => .error .value

/-- `NDNormalDistr.condition` (nddistr.py:548-559) -/
def condition (pinv : List K → List K) (N : Normal V K) (var : List V) (X : List K) : Except GErr (GRes V K) := do
  let p ← prepare N.vars var
  if p.2 = [] then .ok .one
  else do
    let S11 ← fancy N.Sigma p.2 p.2
    let S12 ← fancy N.Sigma p.2 p.1
    let S21 ← fancy N.Sigma p.1 p.2
    let S22 ← fancy N.Sigma p.1 p.1
    let I22 ← invRow pinv S22
    let g ← rowCol S12 I22
    let diff ← bcast (· - ·) X (takeIdx N.mu p.1)
    let mu ← bcast (· + ·) (takeIdx N.mu p.2) (diff.map fun x => g * x)
    let Sigma ← bcast (· - ·) S11 (S21.map fun x => g * x)
    let M ← make (takeIdx N.vars p.2) mu [Sigma]
    .ok (.normal M)

/-- `NDNormalDistr.pdf` (nddistr.py:529-539), with `invSigma` and `nrm` (nddistr.py:527-528), at one point -/
noncomputable def Normal.pdf (N : Normal V ℝ) (X : List ℝ) : ℝ :=
  let d := N.mu.length
  let x : Fin d → ℝ := fun i => X.getD i 0 - N.mu.getD i 0
  let invSigma := (toMatrix d N.Sigma)⁻¹
  let nrm := 1 / √((toMatrix d N.Sigma).det * (2 * Real.pi) ^ d)
  nrm * Real.exp (-(1/2) * ∑ i, x i * ∑ j, invSigma i j * x j)

/-- the distribution as a joint density with its box (nddistr.py:523-524) -/
noncomputable def Normal.toFac (N : Normal V ℝ) : Fac V ℝ :=
  { kind := .gen, dims := List.zipWith (fun v m => ⟨v, Ext.fin (m - 5), Ext.fin (m + 5)⟩) N.vars N.mu,
    fn := N.pdf, abs := false }

end Pacal.NDNormal
