import Verif.NDNormal.PropLemmas

/-!
C52: margins and conditionals of multivariate normal distributions.
-/

namespace Pacal.NDNormal
open Pacal.NDim Matrix Function
variable {V : Type} [DecidableEq V]

/-- C52: a multivariate normal distribution with means `m` and covariances `C` has the normal density -/
theorem C52_density {N : Normal V ℝ} {m : V → ℝ} {C : V → V → ℝ} (hN : Describes N m C) (σ : V → ℝ) :
    N.dens σ = normalDens N.vars m C σ := pdf_eq hN σ

/-- C52: eliminating variables keeps exactly the means and the covariances of the remaining variables; it gives the
constant 1 if there are none -/
theorem C52_eliminate {N : Normal V ℝ} {m : V → ℝ} {C : V → V → ℝ} (hN : Describes N m C)
    (hC : (covMatrix N.vars C).PosDef) {var : List V} (hv : ∀ v ∈ var, v ∈ N.vars) :
    ∃ r, eliminate N var = .ok r ∧ r.Describes m C ∧ (r.vars = N.vars.filter fun v => decide (v ∉ var)) ∧
      (r = .one ↔ ∀ v ∈ N.vars, v ∈ var) := by
  obtain ⟨r, h1, h2, h3, h4⟩ := eliminate_real hN hC hv
  refine ⟨r, h1, h2, h3, h4.trans ?_⟩
  rw [List.filter_eq_nil_iff]
  simp only [decide_eq_true_eq, not_not]

/-- C52: any two sequences of eliminations that eliminate the same variables have the same result -/
theorem C52_any_order {N : Normal V ℝ} {m : V → ℝ} {C : V → V → ℝ} (hN : Describes N m C)
    (hC : (covMatrix N.vars C).PosDef) (hne : N.vars ≠ []) {vss wss : List (List V)} (hn : vss.flatten.Nodup)
    (hv : ∀ v ∈ vss.flatten, v ∈ N.vars) (hp : vss.flatten.Perm wss.flatten) :
    ∃ r, eliminateAll N vss = .ok r ∧ eliminateAll N wss = .ok r ∧ r.Describes m C ∧
      r.vars = N.vars.filter fun v => decide (v ∉ vss.flatten) := by
  obtain ⟨r, a, b, c, d⟩ := eliminateAll_real vss N hN hC hn hv hne
  obtain ⟨s, a', b', c', d'⟩ := eliminateAll_real wss N hN hC (hp.nodup_iff.1 hn) (fun v hv' => hv v (hp.mem_iff.2 hv')) hne
  have he : N.vars.filter (fun v => decide (v ∉ wss.flatten)) = N.vars.filter fun v => decide (v ∉ vss.flatten) := by
    refine List.filter_congr fun v _ => ?_
    exact decide_eq_decide.2 (not_congr hp.mem_iff.symm)
  rw [he] at c' d'
  have : r = s := res_ext b b' (c.trans c'.symm) (d.trans d'.symm)
  exact ⟨r, a, this ▸ a', b, c⟩

/-- C52: the density after an elimination is the integral of the joint density over the eliminated variables, in any
order -/
theorem C52_margin {N : Normal V ℝ} {m : V → ℝ} {C : V → V → ℝ} (hN : Describes N m C)
    (hC : (covMatrix N.vars C).PosDef) {var order : List V} (hn : var.Nodup) (hv : ∀ v ∈ var, v ∈ N.vars)
    (ho : order.Perm var) {r : GRes V ℝ} (hr : eliminate N var = .ok r) (σ : V → ℝ) :
    r.dens σ = integ realInt order N.dens σ := by
  obtain ⟨r', h1, h2, h3, -⟩ := eliminate_real hN hC hv
  rw [hr] at h1
  cases h1
  have : N.dens = normalDens N.vars m C := funext (pdf_eq hN)
  rw [res_dens h2, this]
  refine (integ_normalDens order N.vars r.vars (ho.nodup_iff.2 hn) (fun w => ?_) (fun w hw => ?_) hC σ).symm
  · rw [h3, mem_rest, ho.mem_iff]
    constructor
    · intro h
      by_cases h' : w ∈ var
      · exact Or.inl h'
      · exact Or.inr ⟨h, h'⟩
    · rintro (h | h)
      · exact hv w h
      · exact h.1
  · rw [h3, mem_rest, not_and, not_not]
    exact fun _ => ho.mem_iff.1 hw

/-- C52, conditioning.  Full statement: conditioning any variables of a multivariate normal distribution on values gives the
conditional normal law.  Proved for two variables, one of them given: the mean and the variance are those of the conditional
law, and the density is the joint density divided by the density of the condition.  With more variables conditioning raises
(`C52_violated_condition`). -/
theorem C52_condition_partial {N : Normal V ℝ} {m : V → ℝ} {C : V → V → ℝ} (hN : Describes N m C)
    (hC : (covMatrix N.vars C).PosDef) {v c : V} (hvars : N.vars = [v, c] ∨ N.vars = [c, v])
    (pinv : List ℝ → List ℝ) (x : ℝ) :
    ∃ M, condition pinv N [v] [x] = .ok (.normal M) ∧ M.vars = [c] ∧ M.mu = [m c + C c v / C v v * (x - m v)] ∧
      M.Sigma = [[C c c - C c v / C v v * C v c]] ∧
      ∀ σ, M.dens σ = N.dens (update σ v x) / ∫ t, N.dens (update (update σ v x) c t) := by
  obtain ⟨hne, hrest, hmem⟩ := two_vars hN.nodup hvars
  have hv : v ∈ N.vars := (hmem v).2 (Or.inr (by simp))
  have hvc : c ∉ [v] := by simpa using hne
  obtain ⟨hvv, hq, -⟩ := normalDens_two hmem hvc (m := m) hC fun _ => 0
  refine ⟨_, condition_two hN hv hrest hvv.ne' hq.ne' x, rfl, rfl, rfl, fun σ => ?_⟩
  have hM : Describes (⟨[c], [m c + C c v / C v v * (x - m v)], [[C c c - C c v / C v v * C v c]]⟩ : Normal V ℝ)
      (fun _ => m c + C c v / C v v * (x - m v)) (fun _ _ => C c c - C c v / C v v * C v c) :=
    ⟨List.nodup_singleton c, rfl, rfl⟩
  have hNd : N.dens = normalDens N.vars m C := funext (pdf_eq hN)
  rw [pdf_eq hM, normalDens_one hq, hNd, integral_normalDens hmem hvc hC]
  obtain ⟨-, -, h3⟩ := normalDens_two hmem hvc (m := m) hC (update σ v x)
  rw [h3, update_self, update_of_ne hne, mul_div_assoc, div_self, mul_one]
  exact (normalDens_pos (posDef_sub hC fun w hw => (hmem w).2 (Or.inr hw)) _).ne'

/-- C52: conditioning on all variables gives the constant 1 -/
theorem C52_condition_all {N : Normal V ℝ} {m : V → ℝ} {C : V → V → ℝ} (hN : Describes N m C) {var : List V}
    (hv : ∀ v ∈ var, v ∈ N.vars) (ha : ∀ v ∈ N.vars, v ∈ var) (pinv : List ℝ → List ℝ) (X : List ℝ) :
    condition pinv N var X = .ok .one := by
  have h0 : N.vars.filter (fun v => decide (v ∉ var)) = [] := by
    rw [List.filter_eq_nil_iff]
    simpa using ha
  rw [condition, prepare_ok hN.nodup hv, h0]
  rfl

/-- C52 is violated for three or more variables: conditioning always raises, whenever some variables are given and some are
left, because `Sigma[r, c]` with two lists takes single elements and not a submatrix.  (`pinv` is the pseudo inverse of a
row, a column of the same length.) -/
theorem C52_violated_condition {N : Normal V ℝ} {m : V → ℝ} {C : V → V → ℝ} (hN : Describes N m C) {var : List V}
    (hv : ∀ v ∈ var, v ∈ N.vars) (h0 : var ≠ []) (h1 : ∃ v ∈ N.vars, v ∉ var) (h3 : 3 ≤ N.vars.length)
    {pinv : List ℝ → List ℝ} (hp : ∀ s, (pinv s).length = s.length) {X : List ℝ} (hX : X.length = var.length) :
    ∃ e, condition pinv N var X = .error e := by
  cases h : condition pinv N var X with
  | error e => exact ⟨e, rfl⟩
  | ok r =>
    exfalso
    obtain ⟨u, hu, huv⟩ := h1
    have hmem : u ∈ N.vars.filter fun v => decide (v ∉ var) := mem_rest.2 ⟨hu, huv⟩
    cases r with
    | one =>
      rw [condition, prepare_ok hN.nodup hv] at h
      obtain ⟨p, hpp, h⟩ := bindOk.1 h
      cases hpp
      dsimp only at h
      rw [if_neg (by
        intro e
        rw [List.map_eq_nil_iff] at e
        rw [e] at hmem
        simp at hmem)] at h
      obtain ⟨_, -, h⟩ := bindOk.1 h
      obtain ⟨_, -, h⟩ := bindOk.1 h
      obtain ⟨_, -, h⟩ := bindOk.1 h
      obtain ⟨_, -, h⟩ := bindOk.1 h
      obtain ⟨_, -, h⟩ := bindOk.1 h
      obtain ⟨_, -, h⟩ := bindOk.1 h
      obtain ⟨_, -, h⟩ := bindOk.1 h
      obtain ⟨_, -, h⟩ := bindOk.1 h
      obtain ⟨_, -, h⟩ := bindOk.1 h
      obtain ⟨_, -, h⟩ := bindOk.1 h
      cases h
    | normal M =>
      obtain ⟨a, b⟩ := condition_shapes hp hN hv h0 hX h
      obtain ⟨v, rfl⟩ := List.length_eq_one_iff.1 a
      obtain ⟨c, hc⟩ := List.length_eq_one_iff.1 b
      have hsub : N.vars ⊆ [v, c] := by
        intro w hw
        by_cases hwv : w = v
        · simp [hwv]
        · have : w ∈ N.vars.filter fun w => decide (w ∉ [v]) := mem_rest.2 ⟨hw, by simpa using hwv⟩
          rw [hc, List.mem_singleton] at this
          simp [this]
      have := (hN.nodup.subperm hsub).length_le
      simp only [List.length_cons, List.length_nil] at this
      omega

/-- C52: the constructor accepts exactly the square arrays of the size of the mean with a nonzero determinant, and keeps
what it is given -/
theorem C52_shape {K : Type} [Field K] [DecidableEq K] (vars : List V) (mu : List K) (Sigma : List (List K)) :
    (make vars mu Sigma = .error .assertion ↔ ¬ (Sigma.length = mu.length ∧ ∀ r ∈ Sigma, r.length = mu.length)) ∧
    ∀ N, make vars mu Sigma = .ok N ↔ N = ⟨vars, mu, Sigma⟩ ∧ Sigma.length = mu.length ∧
      (∀ r ∈ Sigma, r.length = mu.length) ∧ (toMatrix mu.length Sigma).det ≠ 0 := by
  unfold make
  by_cases h : Sigma.length = mu.length ∧ ∀ r ∈ Sigma, r.length = mu.length
  · rw [if_pos h]
    by_cases hd : (toMatrix mu.length Sigma).det = 0
    · rw [if_pos hd]
      refine ⟨⟨fun e => (by cases e), fun e => (e h).elim⟩, fun N => ⟨fun e => (by cases e), fun e => (e.2.2.2 hd).elim⟩⟩
    · rw [if_neg hd]
      refine ⟨⟨fun e => (by cases e), fun e => (e h).elim⟩, fun N => ⟨fun e => ?_, fun e => ?_⟩⟩
      · cases e; exact ⟨rfl, h.1, h.2, hd⟩
      · rw [e.1]
  · rw [if_neg h]
    refine ⟨⟨fun _ => h, fun _ => rfl⟩, fun N => ⟨fun e => (by cases e), fun e => (h ⟨e.2.1, e.2.2.1⟩).elim⟩⟩

example : make (V := ℕ) [0, 1] [(1 : ℚ), 2] [[1, 0], [0]] = .error .assertion :=
  ((C52_shape _ _ _).1).2 (by decide)

/-- Without given variables, `NDNormalDistr(mu, Sigma)` makes marginals whose standard deviation is `Sigma[i, i]`: their
variance is the variance `Sigma[i, i]` only if that is 0 or 1 -/
theorem C52_finding_default_vars (mu : List ℝ) (Sigma : List (List ℝ)) (i : ℕ) (p : ℝ × ℝ)
    (h : (defaultVars mu Sigma)[i]? = some p) : p.2 ^ 2 = entry Sigma i i ↔ entry Sigma i i = 0 ∨ entry Sigma i i = 1 := by
  rw [defaultVars, List.getElem?_map] at h
  cases hr : (List.range mu.length)[i]? with
  | none => rw [hr] at h; simp at h
  | some j =>
    obtain ⟨hlt, hj⟩ := List.getElem?_eq_some_iff.1 hr
    rw [List.getElem_range] at hj
    rw [hr] at h
    simp only [Option.map_some, Option.some.injEq] at h
    rw [← h, ← hj]
    show entry Sigma i i ^ 2 = _ ↔ _
    constructor
    · intro e
      have : entry Sigma i i * (entry Sigma i i - 1) = 0 := by
        rw [mul_sub, mul_one, ← pow_two, e, sub_self]
      rcases mul_eq_zero.1 this with h' | h'
      · exact Or.inl h'
      · exact Or.inr (sub_eq_zero.1 h')
    · rintro (e | e) <;> rw [e] <;> norm_num

/-- The joint density is cut off at a distance of 5 from the mean in every coordinate, whatever the variance: there it is 0,
while the normal density is positive -/
theorem C52_finding_box {N : Normal V ℝ} {m : V → ℝ} {C : V → V → ℝ} (hN : Describes N m C)
    (hC : (covMatrix N.vars C).PosDef) {v : V} (hv : v ∈ N.vars) {σ : V → ℝ} (hσ : m v + 5 < σ v) :
    N.toFac.dens σ = 0 ∧ 0 < N.dens σ := by
  refine ⟨Fac.dens_out fun hin => ?_, by rw [pdf_eq hN]; exact normalDens_pos hC σ⟩
  have hd : (⟨v, Ext.fin (m v - 5), Ext.fin (m v + 5)⟩ : Dim V ℝ) ∈ N.toFac.dims := by
    show _ ∈ List.zipWith (fun v m => (⟨v, Ext.fin (m - 5), Ext.fin (m + 5)⟩ : Dim V ℝ)) N.vars N.mu
    rw [hN.mu, List.zipWith_map_right, List.zipWith_self]
    exact List.mem_map.2 ⟨v, hv, rfl⟩
  have h := (hin _ hd).2
  have : σ v ≤ m v + 5 := WithTop.coe_le_coe.1 (WithBot.coe_le_coe.1 h)
  linarith

/-! ### the hypotheses can be met -/

section Examples

/-- two correlated variables -/
def exC (v w : Fin 2) : ℝ := if v = w then 2 else 1

noncomputable def exN : Normal (Fin 2) ℝ := ⟨[0, 1], [0, 3], [[2, 1], [1, 2]]⟩

theorem exN_describes : Describes exN (fun v => if v = 0 then 0 else 3) exC := by
  refine ⟨by decide, ?_, ?_⟩ <;> simp [exN, exC]

theorem exC_posDef : (covMatrix exN.vars exC).PosDef := by
  refine PosDef.of_dotProduct_mulVec_pos ?_ fun x hx => ?_
  · ext i j
    simp only [covMatrix, conjTranspose_apply, of_apply, exC, star_trivial, eq_comm]
  · have h0 : (0 : Fin 2) ∈ exN.vars := by simp [exN]
    have h1 : (1 : Fin 2) ∈ exN.vars := by simp [exN]
    have hsum : ∀ f : {v // v ∈ exN.vars} → ℝ, ∑ i, f i = f ⟨0, h0⟩ + f ⟨1, h1⟩ := by
      intro f
      have : (Finset.univ : Finset {v // v ∈ exN.vars}) = {⟨0, h0⟩, ⟨1, h1⟩} := by
        ext ⟨w, hw⟩
        fin_cases w <;> simp
      rw [this, Finset.sum_pair (by simp)]
    have hval : star x ⬝ᵥ covMatrix exN.vars exC *ᵥ x =
        x ⟨0, h0⟩ ^ 2 + x ⟨1, h1⟩ ^ 2 + (x ⟨0, h0⟩ + x ⟨1, h1⟩) ^ 2 := by
      simp only [dotProduct, mulVec, hsum, covMatrix, of_apply, exC, Pi.star_apply, star_trivial]
      norm_num
      ring
    rw [hval]
    by_contra hneg
    have a : x ⟨0, h0⟩ = 0 := by nlinarith [sq_nonneg (x ⟨0, h0⟩), sq_nonneg (x ⟨1, h1⟩), sq_nonneg (x ⟨0, h0⟩ + x ⟨1, h1⟩)]
    have b : x ⟨1, h1⟩ = 0 := by nlinarith [sq_nonneg (x ⟨0, h0⟩), sq_nonneg (x ⟨1, h1⟩), sq_nonneg (x ⟨0, h0⟩ + x ⟨1, h1⟩)]
    refine hx (funext ?_)
    rintro ⟨w, hw⟩
    fin_cases w
    · exact a
    · exact b

example : ∃ r, eliminate exN [0] = .ok r ∧ r.vars = [1] ∧ ∀ σ, r.dens σ = ∫ t, exN.dens (update σ 0 t) := by
  obtain ⟨r, h1, h2, h3, -⟩ := C52_eliminate exN_describes exC_posDef (var := [0]) (by simp [exN])
  refine ⟨r, h1, by rw [h3]; decide, fun σ => ?_⟩
  rw [C52_margin exN_describes exC_posDef (by simp) (by simp [exN]) (List.Perm.refl [0]) h1]
  rfl

example : ∃ M, condition id exN [0] [2] = .ok (.normal M) ∧ M.mu = [3 + 1 / 2 * (2 - 0)] ∧ M.Sigma = [[2 - 1 / 2 * 1]] := by
  obtain ⟨M, h1, -, h2, h3, -⟩ := C52_condition_partial exN_describes exC_posDef (v := 0) (c := 1) (Or.inl rfl) id 2
  exact ⟨M, h1, by rw [h2]; simp [exC], by rw [h3]; simp [exC]⟩

example : ∃ r, eliminateAll exN [[0], [1]] = .ok r ∧ eliminateAll exN [[1, 0]] = .ok r := by
  obtain ⟨r, h1, h2, -⟩ := C52_any_order exN_describes exC_posDef (by simp [exN]) (vss := [[0], [1]]) (wss := [[1, 0]])
    (by simp) (by simp [exN]) (by simpa using List.Perm.swap 1 0 [])
  exact ⟨r, h1, h2⟩

/-- three independent standard variables cannot be conditioned on one of them: shapes do not fit -/
example : (match condition (K := ℚ) id (⟨[0, 1, 2], [0, 0, 0], [[1, 0, 0], [0, 1, 0], [0, 0, 1]]⟩ : Normal (Fin 3) ℚ) [0] [1]
    with | .error e => some e | .ok _ => none) = some .value := by decide +kernel

example : (match condition (K := ℚ) id (⟨[0, 1, 2], [0, 0, 0], [[1, 0, 0], [0, 1, 0], [0, 0, 1]]⟩ : Normal (Fin 3) ℚ) [0, 2]
    [1, 1] with | .error e => some e | .ok _ => none) = some .assertion := by decide +kernel

end Examples

end Pacal.NDNormal
