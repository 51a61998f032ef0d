import Verif.Segments.Model
import Mathlib.Data.List.Sort
import Mathlib.Data.Prod.Lex
import Mathlib.Data.Bool.Basic

/-!
Model of the functions that merge nearby break points: `_unique_breakpoints`
(`/repo/pacal/indeparith.py:41-55`) and `epsunique` (`/repo/pacal/utils.py:229-231`).
-/

namespace Pacal
namespace Breaks
variable {K : Type*} [Field K] [LinearOrder K] [IsStrictOrderedRing K]

/-- One entry of the list `breaks` of `conv` (indeparith.py:62-107):
`[x, negPole, posPole, negDerivPole, posDerivPole]`.  The entries for infinite points have three
components only; they get two more `False`. -/
structure Brk (K : Type*) where
  x : Ext K
  f1 : Bool
  f2 : Bool
  f3 : Bool
  f4 : Bool

/-- the key by which Python compares two such lists (component by component) -/
def Brk.key (b : Brk K) : Ext K ×ₗ Bool ×ₗ Bool ×ₗ Bool ×ₗ Bool :=
  toLex (b.x, toLex (b.f1, toLex (b.f2, toLex (b.f3, b.f4))))

/-- `abs(x - y) <= eps` for floats: false if one of them is infinite (`inf` or `nan`) -/
def near (eps : K) (x y : Ext K) : Bool :=
  match x, y with
  | some (some x), some (some y) => decide (|x - y| ≤ eps)
  | _, _ => false

/-- lines 50-53: `ubreaks[-1][1] |= breaks[i][1]` etc. -/
def Brk.or (a b : Brk K) : Brk K := ⟨a.x, a.f1 || b.f1, a.f2 || b.f2, a.f3 || b.f3, a.f4 || b.f4⟩

/-- the two nested while loops (lines 45-54); `cur` is `ubreaks[-1]` -/
def mergeFrom (eps : K) (cur : Brk K) : List (Brk K) → List (Brk K)
  | [] => [cur]
  | b :: rest => if near eps b.x cur.x then mergeFrom eps (cur.or b) rest else cur :: mergeFrom eps b rest

/-- `_unique_breakpoints` (indeparith.py:41-55) -/
def uniqueBreakpoints (eps : K) (breaks : List (Brk K)) : List (Brk K) :=
  match breaks.insertionSort (fun a b => a.key ≤ b.key) with
  | [] => []
  | b :: rest => mergeFrom eps b rest

/-- `np.unique` (sorted, without repetitions); `nan` is removed before (utils.py:230) -/
def npUnique (tab : List (Ext K)) : List (Ext K) := (tab.insertionSort (· ≤ ·)).dedup

/-- the mask of utils.py:231 for an element `x` with predecessor `p`:
`~isfinite(x) | (x - p) / maximum(1, abs(x)) > eps`.  For finite `x` and `p = -inf` the quotient is `inf`;
`p = inf` does not occur in a sorted list. -/
def keep (eps : K) (p x : Ext K) : Bool :=
  match p, x with
  | some (some p), some (some x) => decide ((x - p) / max 1 |x| > eps)
  | _, _ => true

/-- the elements that pass the mask, after the element `p` -/
def keepFrom (eps : K) : Ext K → List (Ext K) → List (Ext K)
  | _, [] => []
  | p, x :: xs => if keep eps p x then x :: keepFrom eps x xs else keepFrom eps x xs

/-- `epsunique` (utils.py:229-231); the first element is always kept -/
def epsunique (eps : K) (tab : List (Ext K)) : List (Ext K) :=
  match npUnique tab with
  | [] => []
  | x :: xs => x :: keepFrom eps x xs

end Breaks
end Pacal
