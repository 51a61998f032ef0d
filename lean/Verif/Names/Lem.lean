import Verif.Names.Spec

/-! Names are read as the expressions they come from. -/

namespace Pacal.Names
variable {E : Env}

theorem reads_add {t : List Tok} {v : ℝ} (ht : Reads E .expr t v) : ∀ {l u w}, Reads E l u w → l = .expr →
    Reads E .expr (t ++ .plus :: u) (v + w) := by
  intro l u w h
  induction h <;> intro hl <;> cases hl
  case term h _ => exact .add ht h
  case add h₁ h₂ ih _ =>
    have := Reads.add (ih rfl) h₂
    simpa [add_assoc] using this
  case sub h₁ h₂ ih _ =>
    have := Reads.sub (ih rfl) h₂
    simpa [add_sub_assoc] using this

theorem reads_mul {t : List Tok} {v : ℝ} (ht : Reads E .term t v) : ∀ {l u w}, Reads E l u w → l = .term →
    Reads E .term (t ++ .star :: u) (v * w) := by
  intro l u w h
  induction h <;> intro hl <;> cases hl
  case factor h _ => exact .mul ht h
  case mul h₁ h₂ ih _ =>
    have := Reads.mul (ih rfl) h₂
    simpa [mul_assoc] using this
  case div h₁ h₂ ih _ =>
    have := Reads.div (ih rfl) h₂
    simpa [mul_div_assoc] using this

theorem up {t : List Tok} {v : ℝ} (h : Reads E .primary t v) : Reads E .term t v := .factor (.primary h)

theorem reads_wrap {t : List Tok} {v : ℝ} (h : Reads E .expr t v) : Reads E .primary (wrap t) v := .paren h

theorem reads_fmt (x : ℝ) : Reads E .factor (fmt x) x := by
  unfold fmt
  split_ifs with h
  · simpa using Reads.neg (.primary (.num (E := E) (x := -x) (by linarith)))
  · exact .primary (.num (not_lt.1 h))

theorem reads_signed {t : List Tok} {v : ℝ} (h : Reads E .expr t v) (x : ℝ) :
    Reads E .expr (t ++ fmtSigned x) (v + x) := by
  unfold fmtSigned
  split_ifs with hx
  · simpa using Reads.sub h (up (.num (E := E) (x := -x) (by linarith)))
  · exact .add h (up (.num (not_lt.1 hx)))

/-- the three ways in which a name may be read -/
structure Good (E : Env) (o : Obj) : Prop where
  expr : Reads E .expr o.name (o.value E)
  term : ¬ o.Loose → o.isSum = false → Reads E .term o.name (o.value E)
  prim : o.isOp = false → Reads E .primary o.name (o.value E)

theorem good_of_prim {o : Obj} (h : Reads E .primary o.name (o.value E)) : Good E o :=
  ⟨.term (up h), fun _ _ => up h, fun _ => h⟩

theorem wrapOp {o : Obj} (h : Good E o) : Reads E .primary (wrapIf o.isOp o.name) (o.value E) := by
  unfold wrapIf
  split_ifs with hb
  · exact reads_wrap h.expr
  · exact h.prim (by simpa using hb)

theorem wrapSum {o : Obj} (h : Good E o) (hl : ¬ o.Loose) : Reads E .term (wrapIf o.isSum o.name) (o.value E) := by
  unfold wrapIf
  split_ifs with hb
  · exact up (reads_wrap h.expr)
  · exact h.term hl (by simpa using hb)

theorem wrapLinear {o : Obj} (h : Good E o) : Reads E .term (wrapIf o.isLinear o.name) (o.value E) := by
  unfold wrapIf
  split_ifs with hb
  · exact up (reads_wrap h.expr)
  · refine h.term ?_ ?_ <;> cases o <;> simp_all [Obj.isLinear, Obj.Loose, Obj.isSum]

theorem fname_value {f : Func} (hf : f ≠ .sigmoid) : f.fname.value = f.value := by
  cases f <;> first | rfl | exact absurd rfl hf

theorem name_good (E : Env) : ∀ o : Obj, o.Clear → Good E o
  | .leaf i, _ => good_of_prim (.var i)
  | .affine d scale shift, h => by
    have hd := name_good E d h
    have hp := wrapOp hd
    have hexpr : Reads E .expr (Obj.affine d scale shift).name ((Obj.affine d scale shift).value E) := by
      unfold Obj.name Obj.value
      split_ifs with h1 h2 h3
      · obtain ⟨rfl, rfl⟩ := h1
        simpa using hd.expr
      · subst h2
        have := Reads.mul (.factor (reads_fmt (E := E) scale)) (.primary hp)
        simpa [mul_comm] using Reads.term this
      · subst h3
        simpa using reads_signed (.term (up hp)) shift
      · have h4 := Reads.mul (.factor (reads_fmt (E := E) scale)) (.primary hp)
        have h5 := Reads.add (.term h4) (.factor (reads_fmt (E := E) shift))
        simpa [mul_comm] using h5
    refine ⟨hexpr, fun hl _ => ?_, fun hc => by cases hc⟩
    have hl' : shift = 0 ∧ (scale = 1 → ¬ d.Loose ∧ d.isSum = false) := by
      simp only [Obj.Loose, not_or, not_not, not_and] at hl
      refine ⟨hl.1, fun h => ?_⟩
      have := hl.2 h
      exact ⟨this.1, by simpa using this.2⟩
    obtain ⟨rfl, hl'⟩ := hl'
    unfold Obj.name Obj.value
    split_ifs with h1 h2 h3
    · obtain ⟨-, rfl⟩ := h1
      simpa using hd.term (hl' rfl).1 (hl' rfl).2
    rotate_left
    · exact absurd rfl h2
    · exact absurd rfl h2
    · have := Reads.mul (.factor (reads_fmt (E := E) scale)) (.primary hp)
      simpa [mul_comm] using this
  | .func f d, h => by
    have hd := name_good E d h.2
    have := Reads.call f.fname hd.expr
    rw [fname_value h.1] at this
    exact good_of_prim this
  | .inv d, h => by
    have hp := wrapOp (name_good E d h)
    have := reads_wrap (.term (Reads.div (up (.num (E := E) zero_le_one)) (.primary hp)))
    exact ⟨.term (up this), fun _ _ => up this, fun hc => by cases hc⟩
  | .abs d, h => good_of_prim (.abs (name_good E d h).expr)
  | .sign d, h => good_of_prim (.call .sign (name_good E d h).expr)
  | .square d, h => good_of_prim (.call .sqr (name_good E d h).expr)
  | .sum d₁ d₂, h =>
    ⟨reads_add (name_good E d₁ h.1).expr (name_good E d₂ h.2).expr rfl, fun _ hc => (by cases hc), fun hc => by cases hc⟩
  | .sub d₁ d₂, h =>
    ⟨.sub (name_good E d₁ h.1).expr (wrapSum (name_good E d₂ h.2.1) h.2.2), fun hc => absurd trivial hc, fun hc => by cases hc⟩
  | .mul d₁ d₂, h =>
    have := reads_mul (wrapLinear (name_good E d₁ h.1)) (wrapLinear (name_good E d₂ h.2)) rfl
    ⟨.term this, fun _ _ => this, fun hc => by cases hc⟩
  | .div d₁ d₂, h =>
    have := Reads.div (up (wrapOp (name_good E d₁ h.1))) (.primary (wrapOp (name_good E d₂ h.2)))
    ⟨.term this, fun _ _ => this, fun hc => by cases hc⟩
  | .min d₁ d₂, h =>
    have := Reads.min (name_good E d₁ h.1).expr (name_good E d₂ h.2).expr
    ⟨.term (up this), fun _ _ => up this, fun hc => by cases hc⟩
  | .max d₁ d₂, h =>
    have := Reads.max (name_good E d₁ h.1).expr (name_good E d₂ h.2).expr
    ⟨.term (up this), fun _ _ => up this, fun hc => by cases hc⟩

end Pacal.Names
