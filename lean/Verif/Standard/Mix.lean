import Verif.Segments.Model
import Mathlib.Data.Real.Basic
import Mathlib.Data.Real.Archimedean

/-!
Model of mixtures (`/repo/pacal/standard_distr.py:68-107`).

A component is given by its density, a piecewise function, and its range.  `none` is an exception.
`ExtremeMixDistr` (112-134) is not modelled: its constructor calls `super(MixDistr, self)` on an object that is not a
`MixDistr`, which raises.
-/

namespace Pacal.Standard

/-- one round of `mix_pdf += self.probs[i] * self.distrs[i].get_piecewise_pdf()` (standard_distr.py:91); `+=` is
`__add__` since `PiecewiseFunction` has no `__iadd__` -/
def mixStep {K : Type*} [Field K] [LinearOrder K] (eps : K) (acc : PF K) (c : K × PF K) : Option (PF K) :=
  (PF.mulReal eps c.2 c.1).bind fun h => PF.operation eps (fun x y => x + y) acc h

/-- `MixDistr(probs, distrs).get_piecewise_pdf()` (standard_distr.py:70-92): the assertion on the lengths is made by the
constructor, an empty list is an index error. -/
def mixPF {K : Type*} [Field K] [LinearOrder K] (eps : K) (probs : List K) (distrs : List (PF K)) : Option (PF K) :=
  if probs.length = distrs.length then
    match probs.zip distrs with
    | [] => none
    | c :: t => (PF.mulReal eps c.2 c.1).bind fun h => t.foldlM (mixStep eps) h
  else none

/-- `MixDistr.range` (standard_distr.py:103-107); `min` of nothing is an exception -/
def mixRange {α : Type*} [LinearOrder α] (rs : List (α × α)) : Option (α × α) :=
  match rs with
  | [] => none
  | r :: t => some (t.foldl (fun m s => min m s.1) r.1, t.foldl (fun m s => max m s.2) r.2)

/-- `randint(0, nmix, n)` in `MixDistr.rand_raw` (standard_distr.py:98), one entry: numpy's uniform choice of a component,
as a function of a uniform draw from `[0, 1)` -/
noncomputable def mixIndex (nmix : ℕ) (u : ℝ) : ℕ := ⌊(nmix : ℝ) * u⌋₊

/-- `bincount(idx, minlength = self.nmix)[k]` (standard_distr.py:99) -/
def mixCount (idx : List ℕ) (k : ℕ) : ℕ := (idx.filter fun i => decide (i = k)).length

/-- `r[idx == k] = draws` (standard_distr.py:101): the marked places get the draws one after another; the lengths have to
agree (numpy would also broadcast a single draw, which `rand(nk[k])` returns only for one place) -/
def maskAssign {α : Type*} (k : ℕ) : List ℕ → List α → List α → Option (List α)
  | [], [], [] => some []
  | i :: idx, x :: r, draws =>
    if i = k then
      match draws with
      | [] => none
      | d :: draws => (maskAssign k idx r draws).map (d :: ·)
    else (maskAssign k idx r draws).map (x :: ·)
  | _, _, _ => none

/-- `MixDistr.rand_raw` (standard_distr.py:96-102) after the choice of the components; `rand k n` is
`self.distrs[k].rand(n)` -/
def mixRand (nmix : ℕ) (rand : ℕ → ℕ → List ℝ) (idx : List ℕ) : Option (List ℝ) :=
  (List.range nmix).foldlM (fun r k => maskAssign k idx r (rand k (mixCount idx k))) (List.replicate idx.length 0)

end Pacal.Standard
