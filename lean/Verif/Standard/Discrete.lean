import Verif.Distr.Discrete

/-!
Model of the standard discrete distributions (`/repo/pacal/standard_distr.py:902-991`).

Each constructor computes a table of points and probabilities, handed to `DiscreteDistr` (`discretePF`, `discretePdf`,
`discreteRand` of `Verif.Distr.Discrete`).  Tables are lists of pairs; `none` is an exception.  The `while` loops carry
fuel; running out of it (`none`) is a loop that has not ended yet, so statements about loops say for which fuel there is a
result.  `**kwargs` are not modelled (`DiscreteDistr.__init__` accepts none).
-/

namespace Pacal.Standard
open Real

/-- one round of the loop of `BinomialDistr` (standard_distr.py:973-978): the current `P` and the table so far -/
noncomputable def binomialStep (n : ℕ) (pq : ℝ) (s : ℝ × List (ℝ × ℝ)) (i : ℕ) : ℝ × List (ℝ × ℝ) :=
  let P := s.1 * ((n : ℝ) - i)
  let P := P / (i + 1)
  let P := P * pq
  (P, s.2 ++ [((i : ℝ) + 1, P)])

/-- the table of `BinomialDistr(n, p)` (standard_distr.py:965-978); `p / q` raises for `q = 0` -/
noncomputable def binomialTable (n : ℕ) (p : ℝ) : Option (List (ℝ × ℝ)) :=
  let q := 1 - p
  let P := q ^ n
  if q = 0 then none
  else
    let pq := p / q
    some ((List.range n).foldl (binomialStep n pq) (P, [(0, P)])).2

/-- the table of `BernoulliDistr(p)` (standard_distr.py:986-987) -/
noncomputable def bernoulliTable (p : ℝ) : List (ℝ × ℝ) := [(0, 1 - p), (1, p)]

/-- the loop of `PoissonDistr` (standard_distr.py:947-955) -/
noncomputable def poissonLoop (lmbda eps : ℝ) : ℕ → ℝ → ℝ → ℝ → List (ℝ × ℝ) → Option (List (ℝ × ℝ))
  | 0, _, _, _, _ => none
  | fuel + 1, k, P, S, t =>
    if 1 - S ≥ eps then
      let t := t ++ [(k, P)]
      let k := k + 1
      let P := P * lmbda
      let P := P / k
      poissonLoop lmbda eps fuel k P (S + P) t
    else some (t ++ [(k, P)])

/-- the table of `PoissonDistr(lmbda, trunk_eps)` (standard_distr.py:939-956) -/
noncomputable def poissonTable (fuel : ℕ) (lmbda eps : ℝ) : Option (List (ℝ × ℝ)) :=
  let P := 1 * exp (-lmbda)
  poissonLoop lmbda eps fuel 0 P P []

/-- the loop of `TruncDiscreteFunDistr` (standard_distr.py:924-928); the result is the table and `S` -/
noncomputable def truncLoop (f : ℝ → ℝ) (eps : ℝ) : ℕ → ℝ → ℝ → List (ℝ × ℝ) → Option (List (ℝ × ℝ) × ℝ)
  | 0, _, _, _ => none
  | fuel + 1, k, S, t =>
    if |S - 1| ≥ eps then
      let t := t ++ [(k, f k)]
      let S := (t.map Prod.snd).sum
      truncLoop f eps fuel (k + 1) S t
    else some (t, S)

/-- the table of `TruncDiscreteFunDistr(fun, trunk_eps)` (standard_distr.py:917-931); a division by `S = 0` raises, if
there is anything to divide -/
noncomputable def truncTable (fuel : ℕ) (f : ℝ → ℝ) (eps : ℝ) : Option (List (ℝ × ℝ)) :=
  (truncLoop f eps fuel 0 0 []).bind fun r =>
    if r.1 ≠ [] ∧ r.2 = 0 then none else some (r.1.map fun p => (p.1, p.2 / r.2))

/-- `ZeroDistr()` (standard_distr.py:904-907) -/
noncomputable def zeroDistr (eps : ℝ) : Option (PF ℝ) := constDistr eps 0

/-- `OneDistr()` (standard_distr.py:909-912) -/
noncomputable def oneDistr (eps : ℝ) : Option (PF ℝ) := constDistr eps 1

end Pacal.Standard
