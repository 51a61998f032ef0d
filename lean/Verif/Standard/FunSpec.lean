import Verif.Standard.Model

/-!
Specification for `Verif.Standard.PropsFun` (C62): which break points and poles can be asked for, and what is asked for.
-/

namespace Pacal.Standard

/-- two consecutive break points whose pole flags the constructor accepts -/
def FlagsOk (p q : Break) : Prop := ¬ (p.rp = true ∧ q.rp = true)

/-- the last break point -/
def endOf : Ext ℝ → List Break → Ext ℝ
  | e, [] => e
  | _, p :: l => endOf p.at_ l

/-- no piece would have to be infinite on the right as first piece, or on both sides -/
def EndsOk : List Break → Prop
  | [_, q] => q.at_ ≠ Ext.pinf
  | _ => True

/-- the piece is stored with a pole at its left end -/
def leftPole : Seg ℝ → Bool
  | .fin .left _ _ _ => true
  | _ => false

/-- the piece is stored with a pole at its right end -/
def rightPole : Seg ℝ → Bool
  | .fin .right _ _ _ => true
  | _ => false

/-- the poles asked for between two consecutive break points can be represented: at most one per piece, none on an
infinite piece, and not a right pole at both points -/
def PolesOk (p q : Break) : Prop :=
  ¬ (p.lp = true ∧ q.rp = true) ∧ ¬ (p.rp = true ∧ q.rp = true) ∧
    (p.at_ = Ext.ninf ∨ q.at_ = Ext.pinf → p.lp = false ∧ q.rp = false)

/-- what is asked for: one piece of `f` between any two consecutive break points, with the given poles -/
structure Shape (f : ℝ → ℝ) (bs : List Break) (r : PF ℝ) : Prop where
  lo : r.map Seg.lo = (bs.map Break.at_).dropLast
  hi : r.map Seg.hi = (bs.map Break.at_).tail
  left : r.map leftPole = (bs.map Break.lp).dropLast
  right : r.map rightPole = (bs.map Break.rp).tail
  fn : ∀ s ∈ r, s.isDirac = false ∧ s.fn = f

/-- the first break point -/
def startOf : List Break → Ext ℝ
  | [] => .pinf
  | p :: _ => p.at_

/-- the last break point -/
def lastOf : List Break → Ext ℝ
  | [] => .ninf
  | p :: l => endOf p.at_ l

end Pacal.Standard
