import Verif.NDim.TotalLemmas
import Mathlib.Data.Rat.Floor

/-!
C50: products of factors.  C53: joint densities vanish outside their box.
-/

set_option linter.unusedSectionVars false

namespace Pacal.NDim
open Function Product
variable {V K : Type} [LinearOrder K] [Field K] [DecidableEq V]

/-! ### C50 -/

/-- C50: a product made of factors can be evaluated at every point, and its density there is the product of the densities
of the given factors, each at its own variables.  (`dens` is one entry of a call with arrays.) -/
theorem C50_product {sort : List V → List V} (hs : SortOk sort) {fs : List (Fac V K)} (hfs : ∀ f ∈ fs, f.WF)
    (hne : fs ≠ []) : ∃ P, mk' sort fs = .ok P ∧ P.WF ∧ (∀ v, v ∈ P.vars ↔ ∃ f ∈ fs, v ∈ f.vars) ∧
      ∀ σ, P.pdf Fac.call (P.vars.map σ) = .ok (joint fs σ) ∧ P.dens σ = joint fs σ := by
  obtain ⟨P, hP⟩ := mk'_total sort hne
  obtain ⟨h1, h2, h3⟩ := mk'_wf hs hfs hP
  refine ⟨P, hP, h1, h2, fun σ => ⟨?_, ?_⟩⟩
  · rw [pdf_ok h1, ← h3]
    rfl
  · rw [h1.dens_eq, h3]

/-- C50: the same for any way to call the factors (scalars or arrays): each factor gets its own variables in its own order -/
theorem C50_own_variables {P : Product V K} (h : P.WF) (callF : Fac V K → List K → K) (σ : V → K) :
    P.pdf callF (P.vars.map σ) = .ok ((P.factors.map fun f => callF f (f.vars.map σ)).prod) := pdf_ok h callF σ

/-- C50: collecting the constant factors does not change the density, and leaves the other factors as they are -/
theorem C50_optimize {fs : List (Fac V K)} (hfs : ∀ f ∈ fs, f.WF) :
    (∀ σ, joint (optimize fs) σ = joint fs σ) ∧ ∃ c, optimize fs = gens fs ∨ optimize fs = gens fs ++ [Fac.ofConst c] := by
  refine ⟨joint_optimize hfs, (fs.foldl optStep ([], 1)).2, ?_⟩
  rw [optimize_eq]
  split_ifs
  · exact Or.inr rfl
  · exact Or.inl (List.append_nil _)

/-- C50: the ranges of a product are the intersections of the ranges of the factors -/
theorem C50_box {P : Product V K} (h : P.WF) (σ : V → K) : P.toFac.Inside σ ↔ ∀ f ∈ P.factors, f.Inside σ :=
  h.inside_iff σ

/-- C50: eliminating variables succeeds, and gives the integral of the product over them, in some order.  The variables
left are the others. -/
theorem C50_eliminate {I : V → (K → K) → K} (hI : Homogeneous I) {marg : Fac V K → List V → Except NErr (Fac V K)}
    (hm : MargOk I marg) (ht : MargTotal marg) {sort : List V → List V} (hs : SortOk sort) {P : Product V K} (hP : P.WF)
    {Var : List V} (hn : Var.Nodup) (hv : ∀ v ∈ Var, v ∈ P.vars) :
    ∃ r, P.eliminate sort marg Var.length Var = .ok r ∧ (∀ v, v ∈ r.vars ↔ v ∈ P.vars ∧ v ∉ Var) ∧
      ∃ order, order.Perm Var ∧ ∀ σ, r.dens σ = integ I order P.dens σ := by
  obtain ⟨r, hr⟩ := eliminate_total hI hm ht hs Var.length P Var hP hn hv (le_refl _)
  obtain ⟨-, -, h1, -, order, h2, h3⟩ := eliminate_ok hI hm hs _ P Var r hP hn hr
  exact ⟨r, hr, h1, order, h2, fun σ => by rw [h3, integ_congr fun τ => (hP.dens_eq τ).symm]⟩

/-- C50: in any order, if any two integrals can be exchanged -/
theorem C50_eliminate_any_order {I : V → (K → K) → K} (hI : Homogeneous I) (hc : Exchangeable I)
    {marg : Fac V K → List V → Except NErr (Fac V K)}
    (hm : MargOk I marg) (ht : MargTotal marg) {sort : List V → List V} (hs : SortOk sort) {P : Product V K} (hP : P.WF)
    {Var : List V} (hn : Var.Nodup) (hv : ∀ v ∈ Var, v ∈ P.vars) :
    ∃ r, P.eliminate sort marg Var.length Var = .ok r ∧ (∀ v, v ∈ r.vars ↔ v ∈ P.vars ∧ v ∉ Var) ∧
      ∀ order, order.Perm Var → ∀ σ, r.dens σ = integ I order P.dens σ := by
  obtain ⟨r, h1, h2, o, ho, h3⟩ := C50_eliminate hI hm ht hs hP hn hv
  exact ⟨r, h1, h2, fun order h σ => by rw [h3, integ_perm hc (ho.trans h.symm)]⟩

/-- C50: eliminating a variable only touches the factors containing it: the other factors stay, the ones with the variable
are replaced by a single factor, the integral of their product -/
theorem C50_eliminate_touches {I : V → (K → K) → K} (hI : Homogeneous I)
    {marg : Fac V K → List V → Except NErr (Fac V K)} (hm : MargOk I marg) {sort : List V → List V} (hs : SortOk sort)
    {fuel : ℕ} {P R : Product V K} {v : V} (hP : P.WF) (h : P.eliminate sort marg fuel [v] = .ok (.prod R)) :
    ∃ g, (∀ σ, g.dens σ = I v fun x => joint (P.factors.filter fun f => decide (v ∈ f.vars)) (update σ v x)) ∧
      gens R.factors = gens (P.factors.filter (fun f => decide (v ∉ f.vars)) ++ [g]) := eliminate_one hI hm hs hP h

/-- C50: conditioning succeeds if the values are in the ranges and no factor has two of the variables, and gives the
product at these values, divided by its integral over the remaining variables -/
theorem C50_condition {I : V → (K → K) → K} (hI : Homogeneous I) {marg : Fac V K → List V → Except NErr (Fac V K)}
    (hm : MargOk I marg) (ht : MargTotal marg) {sort : List V → List V} (hs : SortOk sort)
    {range : V → Ext K × Ext K} {P : Product V K} (hP : P.WF) (hPc : ConstFree P.factors) (hPn : P.factors ≠ [])
    {Var : List V} {X : List K} (hn : Var.Nodup) (hl : X.length = Var.length) (hv : ∀ v ∈ Var, v ∈ P.vars)
    (hr : ∀ p ∈ Var.zip X, (range p.1).1 ≤ Ext.fin p.2 ∧ Ext.fin p.2 ≤ (range p.1).2)
    (h1 : ∀ f ∈ P.factors, ∀ v ∈ Var, ∀ w ∈ Var, v ∈ f.vars → w ∈ f.vars → v = w) :
    ∃ P', P.condition sort marg range Var X = .ok P' ∧ P'.WF ∧ (∀ v, v ∈ P'.vars ↔ v ∈ P.vars ∧ v ∉ Var) ∧
      ∃ order, order.Perm P'.vars ∧ ∀ σ, integ I order (fun τ => P.dens (override (Var.zip X) τ)) σ ≠ 0 →
        P'.dens σ = P.dens (override (Var.zip X) σ) / integ I order (fun τ => P.dens (override (Var.zip X) τ)) σ := by
  obtain ⟨P', hP'⟩ := condition_total hI hm ht hs hP hPc hPn hn hl hv hr h1
  obtain ⟨a, b, order, ho, c⟩ := condition_ok hI hm hs hP hPc hn hl hP'
  refine ⟨P', hP', a, b, order, ho, fun σ hσ => ?_⟩
  have hd : ∀ τ, joint P.factors (override (Var.zip X) τ) = P.dens (override (Var.zip X) τ) := fun τ => (hP.dens_eq _).symm
  have := c σ
  rw [hd, integ_congr hd] at this
  exact this hσ

/-- C50: a change of a variable gives the density at the changed point times the Jacobian, at points in the ranges of the
variables -/
theorem C50_varschange {sort : List V → List V} (hs : SortOk sort) {range : V → Ext K × Ext K} {P P' : Product V K}
    (hP : P.WF) {v : V} {g : List K → K} {gvars : List V} {jac : Fac V K} (hj : jac.WF)
    (h : P.varschange sort range v g gvars jac = .ok P') :
    P'.WF ∧ (∀ w, w ∈ P'.vars ↔ w ∈ P.vars ∧ w ≠ v ∨ w ∈ gvars ∨ w ∈ jac.vars) ∧
    ∀ σ, (∀ w ∈ P'.vars, (range w).1 ≤ Ext.fin (σ w) ∧ Ext.fin (σ w) ≤ (range w).2) →
      P'.dens σ = P.dens (update σ v (g (gvars.map σ))) * jac.dens σ := by
  obtain ⟨a, b, c⟩ := varschange_ok hs hP hj h
  exact ⟨a, b, fun σ hσ => by rw [c σ hσ, hP.dens_eq]⟩

/-- Conditioning on two variables of the same factor always fails: `NDProductDistr.condition` passes the values as one list
argument, which is compared with a range.  Stated for a product of one factor of two variables. -/
theorem C50_finding_condition_two {sort : List V → List V} {marg : Fac V K → List V → Except NErr (Fac V K)}
    {range : V → Ext K × Ext K} {P : Product V K} {f : Fac V K} (hf : P.factors = [f]) (hk : f.kind = .gen) {v w : V}
    (hv : v ∈ P.vars) (hw : w ∈ P.vars) (hvf : v ∈ f.vars) (hwf : w ∈ f.vars) (x y : K) :
    P.condition sort marg range [v, w] [x, y] = .error .ambiguous := by
  rw [condition, if_neg (by simp [hv, hw])]
  have h1 : (factorOut P.factors [v, w]).2 = [f] := by
    rw [hf]
    simp [factorOut, hvf]
  show ((factorOut P.factors [v, w]).2.mapM _ >>= _) = _
  rw [h1, List.mapM_cons]
  have h2 : facCondition range f ((([v, w].zip [x, y]).filter fun p => decide (p.1 ∈ f.vars)).map Prod.fst)
      ((([v, w].zip [x, y]).filter fun p => decide (p.1 ∈ f.vars)).map Prod.snd) = .error .ambiguous := by
    simp [facCondition, hk, hvf, hwf]
  rw [h2]
  rfl

/-- A product of no factors cannot be made: `set.union()` of nothing raises -/
theorem C50_finding_no_factors (sort : List V → List V) : mk' sort ([] : List (Fac V K)) = .error .noFactors := rfl

/-! ### C53 -/

/-- C53 for arrays: the value at each point is 0 if a coordinate is outside its range, and is the value of the function
otherwise (its absolute value if `abs` is set) -/
theorem C53_array (f : Fac V K) (pts : List (List K)) (k : ℕ) (X : List K) (hX : pts[k]? = some X) :
    (Outside f.dims X → (f.callArray id pts)[k]? = some 0) ∧
    (¬ Outside f.dims X → (f.callArray id pts)[k]? = some (f.post (f.fn X))) := by
  have h : (f.callArray id pts)[k]? =
      some (f.post (if X = [] then f.fn X else if arrayMask f.dims X then f.fn X else 0)) := by
    rw [Fac.callArray, List.getElem?_map, hX]
    rfl
  rw [h]
  constructor
  · intro ho
    rw [if_neg (outside_ne_nil ho), if_neg (by rw [mask_of_outside ho]; simp), Fac.post_zero]
  · intro hi
    rw [if_pos (mask_of_inside hi)]
    split_ifs <;> rfl

/-- C53 for arrays, for products: 0 if a coordinate is outside of the range in any of the factors -/
theorem C53_product_array {P : Product V K} (h : P.WF) (σ : V → K) {f : Fac V K} (hf : f ∈ P.factors)
    (ho : ¬ f.Inside σ) : P.dens σ = 0 := by
  rw [h.dens_eq]
  exact joint_zero hf (Fac.dens_out ho)

/-- C53 for scalars.  Full statement: the value is 0 if *any* coordinate is outside its range.  Proved for joint densities
of at most one variable; it fails for more (`C53_violated_scalar`). -/
theorem C53_scalar_partial (f : Fac V K) (hd : f.dims.length ≤ 1) (X : List K) :
    (Outside f.dims X → f.callScalar X = 0) ∧ (¬ Outside f.dims X → f.callScalar X = f.post (f.fn X)) := by
  rw [Fac.callScalar, scalarMask_one hd]
  constructor
  · intro ho
    rw [if_neg (outside_ne_nil ho), if_neg (by rw [mask_of_outside ho]; simp), Fac.post_zero]
  · intro hi
    rw [if_pos (mask_of_inside hi)]
    split_ifs <;> rfl

/-- C53 for scalars: any number of variables, at points inside all ranges scalars and arrays agree -/
theorem C53_scalar_inside (f : Fac V K) (X : List K) (hi : ¬ Outside f.dims X) : f.callScalar X = f.post (f.fn X) := by
  rw [Fac.callScalar, if_pos (scalarMask_true hi)]
  split_ifs <;> rfl

/-- C53 for scalars, products of independent variables: if every factor has at most one variable the product of the scalar
calls is 0 outside -/
theorem C53_product_scalar {P : Product V K} (h : P.WF) (h1 : ∀ f ∈ P.factors, f.dims.length ≤ 1) (σ : V → K)
    {f : Fac V K} (hf : f ∈ P.factors) (ho : ¬ f.Inside σ) : P.pdf Fac.callScalar (P.vars.map σ) = .ok 0 := by
  rw [pdf_ok h]
  congr 1
  refine List.prod_eq_zero (List.mem_map.2 ⟨f, hf, ?_⟩)
  exact (C53_scalar_partial f (h1 f hf) _).1 (outside_map.2 ho)

/-- a uniform density on the unit square -/
def square : Fac (Fin 2) ℚ :=
  { kind := .gen, dims := [⟨0, Ext.fin 0, Ext.fin 1⟩, ⟨1, Ext.fin 0, Ext.fin 1⟩], fn := fun _ => 1, abs := false }

/-- C53 is violated for scalars in two variables: the mask is built with `or`, so the density on the unit square is still
1 at (1/2, 7), while the call with arrays gives 0 there -/
theorem C53_violated_scalar : Outside square.dims [1/2, 7] ∧ square.callScalar [1/2, 7] = 1 ∧
    square.callArray id [[1/2, 7]] = [0] := by
  refine ⟨⟨1, ⟨1, Ext.fin 0, Ext.fin 1⟩, 7, rfl, rfl, ?_⟩, by decide +kernel, by decide +kernel⟩
  decide +kernel

/-- Arrays of integers: the result array has the type of the first argument (`zeros_like`), so that densities are truncated.
A density of 1/2 on [0, 2] is returned as 0 at the integer point 1. -/
theorem C53_finding_int_array :
    ({ kind := .gen, dims := [⟨0, Ext.fin 0, Ext.fin 2⟩], fn := fun _ => 1/2, abs := false } : Fac (Fin 1) ℚ).callArray
      (fun y => ((⌊y⌋ : ℤ) : ℚ)) [[1]] = [0] := by decide +kernel

/-! ### the hypotheses can be met -/

section Examples

/-- the mean over the points 0 and 1 in place of an integral -/
def exI (_ : ℕ) (g : ℚ → ℚ) : ℚ := (g 0 + g 1) / 2

theorem exI_homogeneous : Homogeneous exI := by
  intro v c g
  simp only [exI]
  ring

theorem exI_exchangeable : Exchangeable exI := by
  intro v w _ g
  simp only [exI]
  ring

/-- x₀ + x₁ on the unit square -/
def exF : Fac ℕ ℚ :=
  { kind := .gen, dims := [⟨0, Ext.fin 0, Ext.fin 1⟩, ⟨1, Ext.fin 0, Ext.fin 1⟩], fn := List.sum, abs := false }

/-- 1 + x₂ x₁ for x₂ ≥ 0 and x₁ in [0, 2] -/
def exG : Fac ℕ ℚ :=
  { kind := .gen, dims := [⟨2, Ext.fin 0, Ext.pinf⟩, ⟨1, Ext.fin 0, Ext.fin 2⟩], fn := fun X => 1 + X.prod, abs := false }

theorem exF_wf : exF.WF where
  nodup := by decide
  one h := by cases h
  const c h := by cases h

theorem exG_wf : exG.WF where
  nodup := by decide
  one h := by cases h
  const c h := by cases h

theorem ex_wf : ∀ f ∈ [exF, Fac.ofConst 2, exG, Fac.ofOne], f.WF := by
  intro f hf
  simp only [List.mem_cons, List.not_mem_nil, or_false] at hf
  rcases hf with rfl | rfl | rfl | rfl
  exacts [exF_wf, ofConst_wf 2, exG_wf, ofOne_wf]

theorem ex_sort : SortOk (id : List ℕ → List ℕ) := fun l => List.Perm.refl l

example : ∃ P, mk' id [exF, Fac.ofConst 2, exG, Fac.ofOne] = .ok P ∧ P.dens (fun v => [1/2, 1/3, 6][v]?.getD 0) = 5 := by
  obtain ⟨P, h, -, -, h1⟩ := C50_product ex_sort ex_wf (by simp)
  refine ⟨P, h, ?_⟩
  rw [(h1 _).2]
  decide +kernel

/-- eliminating x₁ integrates the product of both factors -/
example : ((mk' id [exF, Fac.ofConst 2, exG, Fac.ofOne]).bind fun P =>
    (P.eliminate id (margOf exI) 1 [1]).map fun r => (r.vars, r.dens fun v => [1/2, 1/3, 6][v]?.getD 0)) =
    .ok ([0, 2], 11) := by decide +kernel

example : ∃ P, mk' id [exF, Fac.ofConst 2, exG, Fac.ofOne] = .ok P ∧ ∃ r, P.eliminate id (margOf exI) 2 [1, 0] = .ok r ∧
    ∀ order, order.Perm [1, 0] → ∀ σ, r.dens σ = integ exI order P.dens σ := by
  obtain ⟨P, h, hP, hv, -⟩ := C50_product ex_sort ex_wf (by simp)
  obtain ⟨r, hr, -, h2⟩ := C50_eliminate_any_order exI_homogeneous exI_exchangeable (margOf_ok exI_homogeneous)
    (margOf_total exI) ex_sort hP (Var := [1, 0]) (by decide) (by
      intro v hv'
      rw [hv]
      refine ⟨exF, by simp, ?_⟩
      revert hv'
      simp [exF, Fac.vars]
      tauto)
  exact ⟨P, h, r, hr, h2⟩

/-- conditioning on x₁ = 1/3: the conditional density of (x₀, x₂) at (1/2, 6) -/
example : ((mk' id [exF, Fac.ofConst 2, exG, Fac.ofOne]).bind fun P =>
    (P.condition id (margOf exI) (fun _ => (Ext.fin 0, Ext.fin 1)) [1] [1/3]).map fun Q =>
      (Q.vars, Q.dens fun v => [1/2, 0, 6][v]?.getD 0)) = .ok ([0, 2], 18/7) := by decide +kernel

/-- a change of variable: x₁ = x₃ - x₀, so that x₃ is the sum -/
example : ((mk' id [exF, Fac.ofConst 2, exG, Fac.ofOne]).bind fun P =>
    (P.varschange id (fun _ => (Ext.fin 0, Ext.fin 10)) 1 (fun X => X.getD 0 0 - X.getD 1 0) [3, 0] Fac.ofOne).map fun Q =>
      (Q.vars, Q.dens fun v => [1/2, 0, 6, 5/6][v]?.getD 0)) = .ok ([2, 3, 0], 5) := by decide +kernel

/-- conditioning on both variables of `exF` fails -/
example : ((mk' id [exF]).bind fun P => (P.condition id (margOf exI) (fun _ => (Ext.fin 0, Ext.fin 1)) [0, 1] [1/2, 1/3]).map
    fun Q => Q.vars) = .error .ambiguous := by decide +kernel

example : (square.callArray id [[1/2, 7], [1/2, 1], [2, 7]]) = [0, 1, 0] := by decide +kernel

end Examples

end Pacal.NDim
