import Verif.Hist.Model
import Mathlib.Algebra.BigOperators.Group.List.Basic

/-!
What a histogram on the scale of a density is.
-/

namespace Pacal
namespace Hist

/-- the area of a bar -/
def Bar.area (b : Bar) : ℝ := b.height * b.width

/-- a value lies in the range given by `xmin` and `xmax` -/
def InRange (A : Args) (x : ℝ) : Prop := (∀ m, A.xmin = some m → m ≤ x) ∧ ∀ m, A.xmax = some m → x ≤ m

/-- the bars stand side by side, are equally wide, and cover exactly the interval from `a` to `b` -/
structure Tiles (bs : List Bar) (a b : ℝ) : Prop where
  first : ∀ c, bs.head? = some c → c.left = a
  last : ∀ c, bs.getLast? = some c → c.left + c.width = b
  next : bs.IsChain fun c d => d.left = c.left + c.width ∧ d.width = c.width
  pos : ∀ c ∈ bs, 0 < c.width
  ne : bs ≠ []

/-- the draws that belong to the bar number `k`: those in its half-open interval, and for the last bar also the right end -/
noncomputable def drawn (D : List ℝ) (A : Args) (bs : List Bar) (k : ℕ) (c : Bar) : ℕ :=
  open Classical in
  D.countP fun x => InRange A x ∧ c.left ≤ x ∧ (x < c.left + c.width ∨ (k + 1 = bs.length ∧ x = c.left + c.width))

/-- `D` are the values of the first `K` calls of `rand`, one after the other -/
def Draws (rand : ℕ → ℕ → List ℝ) (K : ℕ) (D : List ℝ) : Prop :=
  ∃ m : ℕ → ℕ, D = (List.range K).flatMap fun k => rand k (m k)

end Hist
end Pacal
