import Verif.Transform.Model
import Mathlib.Data.EReal.Basic
import Mathlib.Analysis.SpecialFunctions.Log.Base

/-!
Model of the integration front ends (`/repo/pacal/integration.py:211-390`) and of the dispatch `_segint`
(`/repo/pacal/segments.py:2089-2130`, the same code again in `depvars/nddistr.py:414-456, 832-870` and
`depvars/copulas.py:156-190`).

The quadrature on a finite interval (`integrate_fejer2`, `integrate_clenshaw`) is a parameter `q` returning the
pair (value, error estimate).  Keyword arguments that only control printing are left out.
-/

namespace Pacal
namespace Transform

/-- a quadrature routine for finite intervals -/
abbrev Quad := (ℝ → ℝ) → ℝ → ℝ → ℝ × ℝ

/-- `integrate_fejer2_pminf` (integration.py:230-233) -/
noncomputable def fejerPM (q : Quad) (f : ℝ → ℝ) : ℝ × ℝ := integrateWith q recPM f

/-- `integrate_fejer2_pinf` (integration.py:234-241); `a` is a number or `+inf` -/
noncomputable def fejerP (q : Quad) (f : ℝ → ℝ) (a : WithTop ℝ) (b : Option ℝ) (e : ℝ) : ℝ × ℝ :=
  match a with
  | none => (0, 0)
  | some a => integrateWith q (recP a e b) f

/-- `integrate_fejer2_minf` (integration.py:242-249); `b` is a number or `-inf` -/
noncomputable def fejerM (q : Quad) (f : ℝ → ℝ) (b : WithBot ℝ) (a : Option ℝ) (e : ℝ) : ℝ × ℝ :=
  match b with
  | none => (0, 0)
  | some b => integrateWith q (recM b e a) f

/-- `integrate_clenshaw_pminf` (integration.py:211-214) -/
noncomputable def clenshawPM (q : Quad) (f : ℝ → ℝ) : ℝ × ℝ := integrateWith q (algPM 1) f

/-- `integrate_clenshaw_pinf` (integration.py:215-220) -/
noncomputable def clenshawP (q : Quad) (f : ℝ → ℝ) (a : WithTop ℝ) : ℝ × ℝ :=
  match a with
  | none => (0, 0)
  | some a => integrateWith q (algP a 1) f

/-- `integrate_clenshaw_minf` (integration.py:221-226) -/
noncomputable def clenshawM (q : Quad) (f : ℝ → ℝ) (b : WithBot ℝ) : ℝ × ℝ :=
  match b with
  | none => (0, 0)
  | some b => integrateWith q (algM b 1) f

/-- `integrate_fejer2_Xn_transform` (integration.py:252-253) -/
noncomputable def xn (q : Quad) (f : ℝ → ℝ) (a b N : ℝ) : ℝ × ℝ :=
  q (fun t => N * (b - a) * f (t ^ N * (b - a) + a) * t ^ (N - 1)) 0 1

/-- `integrate_fejer2_Xn_transformP` (integration.py:254-258); `eps` is the machine epsilon -/
noncomputable def xnP (q : Quad) (eps : ℝ) (f : ℝ → ℝ) (a b N : ℝ) : ℝ × ℝ :=
  let a := a + |a| * eps
  q (fun t => N * (b - a) * f (t ^ N * (b - a) + a) * t ^ (N - 1)) 0 1

/-- `integrate_fejer2_Xn_transformN` (integration.py:259-263) -/
noncomputable def xnN (q : Quad) (eps : ℝ) (f : ℝ → ℝ) (a b N : ℝ) : ℝ × ℝ :=
  let b := b - |b| * eps
  q (fun t => N * (b - a) * f (b - t ^ N * (b - a)) * t ^ (N - 1)) 0 1

/-- `number_of_intervals` (integration.py:272-273, 285-286) -/
noncomputable def wideCount (cond w : ℝ) : ℕ := ⌈Real.logb 10 w / Real.logb 10 cond⌉₊

/-- `nodes[i]` of the `n + 1` points `sgn * logspace(log10 |a|, log10 |b|, n+1)` with the first and the last one
replaced (integration.py:274-276, 287-289); the last assignment wins when `n = 0` -/
noncomputable def wideNode (sgn a b : ℝ) (n i : ℕ) : ℝ :=
  if i = n then b else if i = 0 then a
  else sgn * (10 : ℝ) ^ (Real.logb 10 |a| + i * ((Real.logb 10 |b| - Real.logb 10 |a|) / n))

/-- the accumulation loop (integration.py:277-282, 290-295) -/
noncomputable def wideSum (q : Quad) (f : ℝ → ℝ) (node : ℕ → ℝ) (n : ℕ) : ℝ × ℝ :=
  (List.range n).foldl (fun s i => (s.1 + (q f (node i) (node (i + 1))).1, s.2 + (q f (node i) (node (i + 1))).2)) (0, 0)

/-- `integrate_wide_interval` for finite ends (integration.py:270-301) -/
noncomputable def wideFin (q : Quad) (cond : ℝ) (f : ℝ → ℝ) (a b : ℝ) : ℝ × ℝ :=
  if a ≠ 0 ∧ b ≠ 0 then
    if b / a > cond ∧ 0 < a ∧ a < b then wideSum q f (wideNode 1 a b (wideCount cond (b / a))) (wideCount cond (b / a))
    else if b / a < 1 / cond ∧ a < b ∧ b < 0 then
      wideSum q f (wideNode (-1) a b (wideCount cond (a / b))) (wideCount cond (a / b))
    else q f a b
  else q f a b

/-- `integrate_wide_interval` (integration.py:264-301): infinite ends are replaced by `∓1e100` -/
noncomputable def wide (q : Quad) (cond : ℝ) (f : ℝ → ℝ) (a b : EReal) : ℝ × ℝ :=
  wideFin q cond f (if a = ⊤ ∨ a = ⊥ then -(10 ^ 100) else a.toReal) (if b = ⊤ ∨ b = ⊥ then 10 ^ 100 else b.toReal)

/-- `integrate_wide_interval2` (integration.py:303-326) -/
noncomputable def wide2 (q : Quad) (f : ℝ → ℝ) (a b e : ℝ) : ℝ × ℝ :=
  let m := (a + b) / 2
  let add := fun p r : ℝ × ℝ => (p.1 + r.1, p.2 + r.2)
  if f m < min (f a) (f b) then add (fejerP q f a (some m) e) (fejerM q f b (some m) e)
  else if f m > max (f a) (f b) then add (fejerM q f m (some a) e) (fejerP q f m (some b) e)
  else if f b > max (f a) (f m) then add (fejerM q f b (some a) e) (0, 0)
  else if f a > max (f m) (f b) then add (fejerP q f a (some b) e) (0, 0)
  else add (q f a b) (0, 0)

/-- `integrate_with_pminf_guess` (integration.py:350-362) -/
noncomputable def guess (q : Quad) (f : ℝ → ℝ) (a b e : ℝ) : ℝ × ℝ :=
  if f a > f b then fejerP q f a (some b) e else fejerM q f b (some a) e

/-- the parameters read by `_segint`: machine epsilon, `integration.wide_condition`,
`integration_infinite.exponent`, `integration_pole.exponent` -/
structure QPar where
  eps : ℝ
  cond : ℝ
  expInf : ℝ
  expPole : ℝ

/-- `_segint` (segments.py:2089-2130).  On the whole line the code passes `exponent=` on to `integrate_fejer2`,
which has no such parameter: `TypeError`. -/
noncomputable def segint (q : Quad) (p : QPar) (f : ℝ → ℝ) (L U : EReal)
    (minf pinf poleL poleU : Bool) : Except PyErr (ℝ × ℝ) :=
  open Classical in
  if L > U then .ok (0, 0)
  else if L = U then .ok (0, 0)
  else if minf then .ok (wide q p.cond f L U)
  else if pinf then .ok (wide q p.cond f L U)
  else if (L ≠ ⊤ ∧ L ≠ ⊥) ∧ (U ≠ ⊤ ∧ U ≠ ⊥) then
    if poleL && poleU then
      let r1 := xnP q p.eps f L.toReal ((L.toReal + U.toReal) * (1 / 2)) p.expPole
      let r2 := xnN q p.eps f ((L.toReal + U.toReal) * (1 / 2)) U.toReal p.expPole
      .ok (r1.1 + r2.1, r1.2 + r2.2)
    else if poleL then .ok (xnP q p.eps f L.toReal U.toReal p.expPole)
    else if poleU then .ok (xnN q p.eps f L.toReal U.toReal p.expPole)
    else .ok (wide q p.cond f L U)
  else if U ≠ ⊤ ∧ U ≠ ⊥ then .ok (fejerM q f (some U.toReal) none p.expInf)
  else if L ≠ ⊤ ∧ L ≠ ⊥ then .ok (fejerP q f (some L.toReal) none p.expInf)
  else .error .typ

end Transform
end Pacal
