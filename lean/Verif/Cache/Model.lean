import Verif.Base.Err
import Mathlib.Logic.Function.Basic

/-!
Model of the representations that a distribution computes on the first request and keeps
(`/repo/pacal/distr.py:46-113` and the `init_piecewise_pdf` methods).

Distribution objects are numbered; `W i` says how object `i` makes its density.  The parents of an object exist before
it, so they have smaller numbers (`Built` in `Spec.lean`).  Densities and distribution functions are values of a type
`D`, and the operations on them (`cumint`, `toInterpolated`, `1 - f`) are parameters which may raise.
-/

namespace Pacal.Cache

/-- the five attributes that are filled on request (distr.py:57-66) -/
inductive Attr
  | pdf | cdf | cdfInterp | ccdf | ccdfInterp
  deriving DecidableEq, Repr

/-- the operations used by the getters (distr.py:88, 97, 102, 112): `cumint()`, `toInterpolated()` and `1 - f` -/
structure Ops (D : Type) where
  cumint : D → Except PyErr D
  interp : D → Except PyErr D
  rsub : D → Except PyErr D

/-- How a class fills `piecewise_pdf`.

`atOnce ps f`: the density is computed from the densities of the parents `ps`, asked for in that order, and assigned
when it is complete.  So do `FuncDistr` (distr.py:590-592), `ShiftedScaledDistr` (601-607), `LogDistr` (643-645), the
inverse (837-839), absolute value and square (900-902, 925-927), sums, differences, products, quotients, minima and
maxima (1132-1187), conditional distributions (1243-1299) and `MixDistr` (standard_distr.py:80-92).

`stepwise first steps`: a first function is assigned and then changed in place, one step after the other.  So do
`DiscreteDistr` (distr.py:1084-1089), `PDistr` (standard_distr.py:55-61), the densities given by a formula
(`NormalDistr` 150-159, `UniformDistr` 179-181, ...), and `FunDistr` (41-44), whose only step is the interpolation. -/
inductive Init (D : Type)
  | atOnce (parents : List ℕ) (f : List D → Except PyErr D)
  | stepwise (first : Except PyErr D) (steps : List (D → Except PyErr D))

/-- the attributes of one object; `none` is Python's `None` (distr.py:57-66) -/
structure Store (D : Type) where
  pdf : Option D := none
  cdf : Option D := none
  cdfInterp : Option D := none
  ccdf : Option D := none
  ccdfInterp : Option D := none

variable {D : Type}

/-- the stored attribute -/
def Store.get (c : Store D) : Attr → Option D
  | .pdf => c.pdf
  | .cdf => c.cdf
  | .cdfInterp => c.cdfInterp
  | .ccdf => c.ccdf
  | .ccdfInterp => c.ccdfInterp

/-- assignment to an attribute -/
def Store.put (c : Store D) (d : D) : Attr → Store D
  | .pdf => { c with pdf := some d }
  | .cdf => { c with cdf := some d }
  | .cdfInterp => { c with cdfInterp := some d }
  | .ccdf => { c with ccdf := some d }
  | .ccdfInterp => { c with ccdfInterp := some d }

/-- the attributes of all objects -/
abbrev State (D : Type) := ℕ → Store D

/-- all attributes are `None` (distr.py:57-66) -/
def State.fresh : State D := fun _ => {}

/-- assignment to an attribute of object `i` -/
def State.put (s : State D) (i : ℕ) (a : Attr) (d : D) : State D := Function.update s i ((s i).put d a)

/-- an evaluation: the value or the exception, and the state afterwards -/
abbrev Eval (A D : Type) := State D → Except PyErr A × State D

/-- `if self.x is None: self.x = compute(); return self.x` (distr.py:86-113) -/
def lazily (i : ℕ) (a : Attr) (compute : Eval D D) : Eval D D := fun s =>
  match (s i).get a with
  | some d => (.ok d, s)
  | none =>
    match compute s with
    | (.ok d, s') => (.ok d, s'.put i a d)
    | (.error e, s') => (.error e, s')

/-- an operation applied to the value of an evaluation -/
def andThen {A B : Type} (m : Eval A D) (f : A → Except PyErr B) : Eval B D := fun s =>
  match m s with
  | (.ok x, s') => (f x, s')
  | (.error e, s') => (.error e, s')

/-- evaluation of the arguments from left to right; the first exception ends it -/
def inOrder (g : ℕ → Eval D D) : List ℕ → Eval (List D) D
  | [], s => (.ok [], s)
  | p :: ps, s =>
    match g p s with
    | (.error e, s') => (.error e, s')
    | (.ok d, s') =>
      match inOrder g ps s' with
      | (.error e, s'') => (.error e, s'')
      | (.ok ds, s'') => (.ok (d :: ds), s'')

/-- the steps done in place on the assigned function: what was reached, and the exception that ended it if there was one -/
def runSteps : List (D → Except PyErr D) → D → Option PyErr × D
  | [], d => (none, d)
  | f :: fs, d =>
    match f d with
    | .error e => (some e, d)
    | .ok d' => runSteps fs d'

/-- `get_piecewise_pdf()` (distr.py:80-84) of object `i`.  The first argument is the depth of recursion allowed; a depth
above the number of the object is enough, as parents have smaller numbers. -/
def getPdf (W : ℕ → Init D) : ℕ → ℕ → Eval D D
  | 0, _, s => (.error .recursion, s)
  | fuel + 1, i, s =>
    match (s i).pdf with
    | some d => (.ok d, s)
    | none =>
      match W i with
      | .atOnce ps f =>
        match inOrder (getPdf W fuel) ps s with
        | (.error e, s') => (.error e, s')
        | (.ok ds, s') =>
          match f ds with
          | .error e => (.error e, s')
          | .ok d => (.ok d, s'.put i .pdf d)
      | .stepwise (.error e) _ => (.error e, s)
      | .stepwise (.ok d) fs =>
        match runSteps fs d with
        | (none, d') => (.ok d', s.put i .pdf d')
        | (some e, d') => (.error e, s.put i .pdf d')

/-- `get_piecewise_cdf()` (distr.py:85-90) -/
def getCdf (W : ℕ → Init D) (o : Ops D) (i : ℕ) : Eval D D :=
  lazily i .cdf (andThen (getPdf W (i + 1) i) o.cumint)

/-- `get_piecewise_cdf_interp()` (distr.py:91-98) -/
def getCdfInterp (W : ℕ → Init D) (o : Ops D) (i : ℕ) : Eval D D :=
  lazily i .cdfInterp (andThen (getCdf W o i) o.interp)

/-- `get_piecewise_ccdf()` (distr.py:99-105) -/
def getCcdf (W : ℕ → Init D) (o : Ops D) (i : ℕ) : Eval D D :=
  lazily i .ccdf (andThen (getCdf W o i) o.rsub)

/-- `get_piecewise_ccdf_interp()` (distr.py:106-113) -/
def getCcdfInterp (W : ℕ → Init D) (o : Ops D) (i : ℕ) : Eval D D :=
  lazily i .ccdfInterp (andThen (getCcdf W o i) o.interp)

/-- the getter of an attribute -/
def getAttr (W : ℕ → Init D) (o : Ops D) (i : ℕ) : Attr → Eval D D
  | .pdf => getPdf W (i + 1) i
  | .cdf => getCdf W o i
  | .cdfInterp => getCdfInterp W o i
  | .ccdf => getCcdf W o i
  | .ccdfInterp => getCcdfInterp W o i

/-- A question to distributions: it reads representations one after the other, each choice depending on what the reads
before gave or raised, and answers or raises.  For example `pdf(x)` (distr.py:128-129), `cdf(x)` (130-132) and `mean()`
(153-155) read one representation; `ccdf_value(x)` (140-150) reads the density and, depending on `x`, the distribution
function. -/
inductive Query (D R : Type)
  | answer (r : Except PyErr R)
  | read (i : ℕ) (a : Attr) (next : Except PyErr D → Query D R)

/-- a question, answered -/
def ask {R : Type} (W : ℕ → Init D) (o : Ops D) : Query D R → Eval R D
  | .answer r, s => (r, s)
  | .read i a next, s => ask W o (next (getAttr W o i a s).1) (getAttr W o i a s).2

/-- what a program does with distributions: it asks a question, or it changes in place the density that
`get_piecewise_pdf()` returned, which is the stored one (for example by `addSegment`, segments.py:1086-1100) -/
inductive Event (D R : Type)
  | ask (q : Query D R)
  | change (i : ℕ) (g : D → D)

/-- the state after an event -/
def step {R : Type} (W : ℕ → Init D) (o : Ops D) (s : State D) : Event D R → State D
  | .ask q => (ask W o q s).2
  | .change i g =>
    match (s i).pdf with
    | none => s
    | some d => s.put i .pdf (g d)

/-- the state after a history -/
def run {R : Type} (W : ℕ → Init D) (o : Ops D) (h : List (Event D R)) (s : State D) : State D := h.foldl (step W o) s

end Pacal.Cache
