import Verif.Identity.Model

/-!
Model of evaluating an expression with the errors that are committed on the way.  Every operation of
`/repo/pacal/indeparith.py` stores, instead of the density it has defined, pieces of the same position with other functions:
interpolants (`toInterpolatedSegment`, segments.py:207-220; indeparith.py:121, 127, 164, 718, 726, 734, 809, 817, 825, 942, 950, 985,
1143, 1151, 1186) of values that carry the error of the quadrature.  `replace e` is this step for the result of the node `e`; it is an
arbitrary function here.  Nodes without interpolation (the functions of one argument, leaves) have the identity.
-/

namespace Pacal.Identity
open Standard

/-- the density of an expression, each intermediate result being replaced (see above) -/
noncomputable def Expr.runWith (M : Machine) (replace : Expr → PF ℝ → PF ℝ) : Expr → Option (PF ℝ)
  | .dist k => (k.build M.env).map (replace (.dist k))
  | .discrete t => (discretePF M.env.eps t).map (replace (.discrete t))
  | .step s e => ((e.runWith M replace).bind fun l => s.run M l).map (replace (.step s e))
  | .add a b => ((a.runWith M replace).bind fun f => (b.runWith M replace).bind fun g =>
      Conv.conv M.par M.pole f g).map (replace (.add a b))
  | .sub a b => ((a.runWith M replace).bind fun f => (b.runWith M replace).bind fun g =>
      Conv.sub M.par M.pole f g).map (replace (.sub a b))
  | .mul a b => ((a.runWith M replace).bind fun f => (b.runWith M replace).bind fun g =>
      Conv.convprod M.par M.pole f g).map (replace (.mul a b))
  | .div a b => ((a.runWith M replace).bind fun f => (b.runWith M replace).bind fun g =>
      Conv.convdiv M.par M.neg0 M.arr M.pole f g).map (replace (.div a b))
  | .min a b => ((a.runWith M replace).bind fun f => (b.runWith M replace).bind fun g =>
      Conv.convmin M.par f g).map (replace (.min a b))
  | .max a b => ((a.runWith M replace).bind fun f => (b.runWith M replace).bind fun g =>
      Conv.convmax M.par f g).map (replace (.max a b))

end Pacal.Identity
