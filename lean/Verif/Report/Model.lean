import Verif.Base.Err
import Verif.Segments.Model

/-!
Model of the reported interpolation errors: `getInterpErrors` (`/repo/pacal/segments.py:1143-1152`), `interp_error_by_segment` and
`interp_error` (`/repo/pacal/distr.py:246-252`).
-/

namespace Pacal.Report
variable {K : Type} [LinearOrder K] [Zero K]

/-- the function of a piece, as far as `getInterpErrors` looks at it; the errors are those found when the interpolators were last
tested (`self.err`, interpolation.py:229, 373) -/
inductive Fn (K : Type)
  /-- an adaptive interpolator, also the ones for poles -/
  | adaptive (err : K)
  /-- `PInfInterpolator` or `MInfInterpolator` (interpolation.py:798-888): one interpolator near the finite end and possibly one
  for the tail -/
  | infinite (vb : K) (vl : Option K)
  /-- anything else: constants, atoms, given functions -/
  | other

structure Piece (K : Type) where
  lo : Ext K
  hi : Ext K
  fn : Fn K

/-- one round of the loop of `getInterpErrors` (segments.py:1146-1151) -/
def pieceError : Fn K → K
  | .adaptive e => e
  | .infinite vb _ => vb
  | .other => 0

/-- `getInterpErrors()` (segments.py:1143-1152), `interp_error_by_segment()` (distr.py:246-248) -/
def errorsByPiece (l : List (Piece K)) : List (Ext K × Ext K × K) := l.map fun s => (s.lo, s.hi, pieceError s.fn)

/-- `interp_error()` (distr.py:249-252); the maximum of an empty list raises -/
def interpError (l : List (Piece K)) : Except PyErr K :=
  match (errorsByPiece l).map fun e => e.2.2 with
  | [] => .error .value
  | e :: es => .ok (es.foldl max e)

end Pacal.Report
