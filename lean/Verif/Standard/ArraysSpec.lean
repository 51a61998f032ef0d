import Verif.Standard.Model
import Verif.Base.Err

/-! What is claimed of densities on arrays and of logarithms of densities. -/

namespace Pacal.Standard
open Real

/-- the function on arrays `g` does not fail on `xs` and gives, entry by entry, what `f` gives for numbers -/
def Elementwise (f : ℝ → Except PyErr Flt) (g : List ℝ → Except PyErr (List Flt)) (xs : List ℝ) : Prop :=
  ∃ ys, g xs = .ok ys ∧ List.Forall₂ (fun x y => f x = .ok y) xs ys

/-- `l` is the logarithm of the nonnegative float `p`, infinities included -/
inductive IsLog : Flt → Flt → Prop
  | pos {r : ℝ} (h : 0 < r) : IsLog (some (r : EReal)) (some (Real.log r : ℝ))
  | zero : IsLog (some 0) (some ⊥)
  | inf : IsLog (some ⊤) (some ⊤)

end Pacal.Standard
