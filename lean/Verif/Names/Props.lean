import Verif.Names.Lem
import Verif.Names.Parse

/-! C98: the name of an expression denotes the expression. -/

namespace Pacal.Names

/-- the name, read with the usual precedences, has the value of the expression for all values of the variables -/
def Denotes (t : List Tok) (o : Obj) : Prop := ∀ E : Env, Reads E .expr t (o.value E)

/-- C98: a list of tokens has at most one value. -/
theorem C98_unique {E : Env} {t : List Tok} {v w : ℝ} (hv : Reads E .expr t v) (hw : Reads E .expr t w) : v = w := by
  have h : NoAdd [] := ⟨fun _ => ⟨by simp, by simp⟩, fun _ => ⟨by simp, by simp⟩⟩
  obtain ⟨N, hN⟩ := reads_finds hv [] _ (after_end h)
  obtain ⟨M, hM⟩ := reads_finds hw [] _ (after_end h)
  have h1 := hN (max N M) (le_max_left _ _)
  rw [hM (max N M) (le_max_right _ _)] at h1
  simp only [Option.some.injEq, Prod.mk.injEq, and_true] at h1
  exact h1.symm

/-- C98: the name of an expression denotes the expression.  Partial: no right operand of a difference may itself be a
difference or have a constant added, and the sigmoid function must not be used (`Clear`); see the violations below. -/
theorem C98_name_partial (o : Obj) (h : o.Clear) : Denotes o.name o := fun E => (name_good E o h).expr

/-- C98: two expressions with the same name have the same values (under the same restriction). -/
theorem C98_same_name_partial (o o' : Obj) (h : o.Clear) (h' : o'.Clear) (hn : o.name = o'.name) (E : Env) :
    o.value E = o'.value E :=
  C98_unique (C98_name_partial o h E) (hn ▸ C98_name_partial o' h' E)

theorem not_denotes {t : List Tok} {o o' : Obj} (h : Denotes t o') (E : Env) (hne : o.value E ≠ o'.value E) :
    ¬ Denotes t o := fun hc => hne (C98_unique (hc E) (h E))

/-- C98 is violated by `X - (Y - Z)`: its name is `X-Y-Z`, which denotes `(X - Y) - Z`. -/
theorem C98_violated_difference :
    let o : Obj := .sub (.leaf 0) (.sub (.leaf 1) (.leaf 2))
    let o' : Obj := .sub (.sub (.leaf 0) (.leaf 1)) (.leaf 2)
    o.name = o'.name ∧ Denotes o.name o' ∧ ¬ Denotes o.name o := by
  intro o o'
  have h : Denotes o'.name o' := C98_name_partial o' ⟨⟨trivial, trivial, fun h => h⟩, trivial, fun h => h⟩
  have hn : o.name = o'.name := rfl
  refine ⟨hn, hn ▸ h, not_denotes (hn ▸ h) (fun _ => 1) ?_⟩
  simp [o, o', Obj.value]
  norm_num

/-- C98 is violated by `X - (Y + 2)`: its name is `X-Y+2`, which denotes `(X - Y) + 2`. -/
theorem C98_violated_shift :
    let o : Obj := .sub (.leaf 0) (.affine (.leaf 1) 1 2)
    o.name = [.var 0, .minus, .var 1, .plus, .num 2] ∧ ¬ Denotes o.name o ∧
      ∀ E : Env, Reads E .expr o.name ((E 0 - E 1) + 2) := by
  intro o
  have hn : o.name = [.var 0, .minus, .var 1, .plus, .num 2] := by
    simp [o, Obj.name, wrapIf, Obj.isSum, Obj.isOp, fmtSigned]
  have h : ∀ E : Env, Reads E .expr o.name ((E 0 - E 1) + 2) := fun E => by
    rw [hn]
    exact Reads.add (Reads.sub (.term (up (.var 0))) (up (.var 1))) (up (.num zero_le_two))
  refine ⟨hn, fun hc => ?_, h⟩
  have := C98_unique (hc fun _ => 0) (h fun _ => 0)
  simp [o, Obj.value] at this
  norm_num at this

/-- C98 is violated by the sigmoid function: `sigmoid(X)` is named `tanh(X)`. -/
theorem C98_violated_sigmoid :
    let o : Obj := .func .sigmoid (.leaf 0)
    let o' : Obj := .func .tanh (.leaf 0)
    o.name = o'.name ∧ ¬ Denotes o.name o := by
  intro o o'
  have hn : o.name = o'.name := rfl
  have h : Denotes o'.name o' := C98_name_partial o' ⟨by simp, trivial⟩
  refine ⟨hn, not_denotes (hn ▸ h) (fun _ => 0) ?_⟩
  simp [o, o', Obj.value, Func.value]

/-- `2*(X+Y)+-3 - |X/(Y*Z)|` and a product with a difference are named correctly -/
example : Obj.Clear (.sub (.affine (.sum (.leaf 0) (.leaf 1)) 2 (-3)) (.abs (.div (.leaf 0) (.mul (.leaf 1) (.sub (.leaf 2) (.leaf 0)))))) := by
  simp [Obj.Clear, Obj.Loose]

example : Obj.name (.sub (.leaf 0) (.affine (.inv (.sum (.leaf 0) (.leaf 1))) (-2) 0))
    = [.var 0, .minus, .minus, .num 2, .star, .lpar, .lpar, .num 1, .slash, .lpar, .var 0, .plus, .var 1, .rpar, .rpar, .rpar] := by
  simp [Obj.name, wrapIf, wrap, Obj.isSum, Obj.isOp, fmt]
  intro h
  norm_num at h

end Pacal.Names
