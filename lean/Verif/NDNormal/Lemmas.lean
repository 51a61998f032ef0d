import Verif.NDNormal.Spec
import Verif.NDim.Lemmas
import Mathlib.Data.List.NodupEquivFin

/-!
Lemmas on the model of multivariate normal distributions.
-/

set_option linter.unusedSectionVars false

namespace Pacal.NDNormal
open Pacal.NDim Matrix Function

theorem bindOk {α β : Type} {x : Except GErr α} {f : α → Except GErr β} {r : β} :
    (x >>= f) = .ok r ↔ ∃ a, x = .ok a ∧ f a = .ok r := by
  cases x with
  | error e =>
    constructor
    · intro h
      cases h
    · rintro ⟨a, h, -⟩
      cases h
  | ok a =>
    constructor
    · intro h
      exact ⟨a, rfl, h⟩
    · rintro ⟨b, h, h'⟩
      cases h
      exact h'

/-! ### numbers of variables -/

section Index
variable {V : Type} [DecidableEq V]

theorem range_eq {vars : List V} (hn : vars.Nodup) : List.range vars.length = vars.map fun v => vars.idxOf v := by
  refine List.ext_getElem (by simp) fun i h1 h2 => ?_
  rw [List.getElem_range, List.getElem_map, hn.idxOf_getElem]

theorem prepare_ok {vars vs : List V} (hn : vars.Nodup) (hv : ∀ v ∈ vs, v ∈ vars) :
    prepare vars vs = .ok (vs.map fun v => vars.idxOf v, (vars.filter fun v => decide (v ∉ vs)).map fun v => vars.idxOf v) := by
  rw [prepare, Product.prepareVar_ok hv]
  dsimp only
  congr 2
  rw [range_eq hn, List.filter_map]
  congr 1
  refine List.filter_congr fun w hw => ?_
  simp only [Function.comp_apply, List.mem_map, decide_eq_decide, not_iff_not]
  constructor
  · rintro ⟨v, hv', h⟩
    have := (List.idxOf_inj (hv v hv')).1 h
    exact this ▸ hv'
  · intro h
    exact ⟨w, h, rfl⟩

theorem delete_map {α : Type} {vars vs : List V} (hn : vars.Nodup) (hv : ∀ v ∈ vs, v ∈ vars) (g : V → α) :
    delete (vars.map g) (vs.map fun v => vars.idxOf v) = (vars.filter fun v => decide (v ∉ vs)).map g := by
  have h0 : delete vars (vs.map fun v => vars.idxOf v) = vars.filter fun v => decide (v ∉ vs) := by
    rw [delete]
    have h1 : vars.zipIdx.filter (fun p => decide (p.2 ∉ vs.map fun v => vars.idxOf v)) =
        vars.zipIdx.filter ((fun v => decide (v ∉ vs)) ∘ Prod.fst) := by
      refine List.filter_congr fun p hp => ?_
      have hp' : vars[p.2]? = some p.1 := by
        have := List.mem_zipIdx_iff_getElem?.1 (show (p.1, p.2) ∈ vars.zipIdx from hp)
        exact this
      obtain ⟨hlt, hget⟩ := List.getElem?_eq_some_iff.1 hp'
      have hidx : vars.idxOf p.1 = p.2 := by rw [← hget, hn.idxOf_getElem]
      simp only [Function.comp_apply, List.mem_map, decide_eq_decide, not_iff_not]
      constructor
      · rintro ⟨v, hv', h⟩
        rw [← hidx] at h
        have := (List.idxOf_inj (hv v hv')).1 h
        exact this ▸ hv'
      · intro h
        exact ⟨p.1, h, hidx⟩
    rw [h1, ← List.filter_map, List.zipIdx_map_fst]
  rw [← h0, delete, delete, List.zipIdx_map, List.filter_map, List.map_map, List.map_map]
  rfl

theorem takeIdx_map {α : Type} {vars ws : List V} (hw : ∀ v ∈ ws, v ∈ vars) (g : V → α) :
    takeIdx (vars.map g) (ws.map fun v => vars.idxOf v) = ws.map g := by
  rw [takeIdx]
  induction ws with
  | nil => rfl
  | cons w ws ih =>
    have h := hw w (by simp)
    have h1 : (vars.map g)[vars.idxOf w]? = some (g w) := by
      rw [List.getElem?_map, List.getElem?_eq_getElem (List.idxOf_lt_length_iff.2 h), List.getElem_idxOf]
      rfl
    rw [List.map_cons, List.filterMap_cons, h1, ih fun v hv => hw v (by simp [hv])]
    rfl

theorem takeIdx_self {vars ws : List V} (hw : ∀ v ∈ ws, v ∈ vars) :
    takeIdx vars (ws.map fun v => vars.idxOf v) = ws := by
  have := takeIdx_map hw id
  rwa [List.map_id, List.map_id] at this

theorem mem_rest {vars vs : List V} {w : V} : w ∈ vars.filter (fun v => decide (v ∉ vs)) ↔ w ∈ vars ∧ w ∉ vs := by
  rw [List.mem_filter, decide_eq_true_eq]

end Index

section Field
variable {V K : Type} [Field K] [DecidableEq K] [DecidableEq V]

theorem entry_map {vars : List V} (C : V → V → K) {v w : V} (hv : v ∈ vars) (hw : w ∈ vars) :
    entry (vars.map fun v => vars.map (C v)) (vars.idxOf v) (vars.idxOf w) = C v w := by
  have h : ∀ {α : Type} (g : V → α) (d : α) (u : V), u ∈ vars → (vars.map g).getD (vars.idxOf u) d = g u := by
    intro α g d u hu
    rw [List.getD_eq_getElem?_getD, List.getElem?_map, List.getElem?_eq_getElem (List.idxOf_lt_length_iff.2 hu),
      List.getElem_idxOf]
    rfl
  rw [entry, h _ _ v hv, h _ _ w hw]

/-- numbers and variables -/
noncomputable def numbering {α : Type} {vars : List V} (hn : vars.Nodup) (m : V → α) :
    Fin (vars.map m).length ≃ {v // v ∈ vars} :=
  (finCongr (List.length_map m)).trans (hn.getEquiv vars)

theorem numbering_val {α : Type} {vars : List V} (hn : vars.Nodup) (m : V → α) (i : Fin (vars.map m).length) :
    (numbering hn m i : V) = vars[i.1]'(by simpa using i.2) := rfl

theorem toMatrix_eq {vars : List V} (hn : vars.Nodup) (m : V → K) (C : V → V → K) :
    toMatrix (vars.map m).length (vars.map fun v => vars.map (C v)) =
      (covMatrix vars C).submatrix (numbering hn m) (numbering hn m) := by
  ext i j
  have hi : i.1 < vars.length := by simpa using i.2
  have hj : j.1 < vars.length := by simpa using j.2
  show entry _ i.1 j.1 = C (numbering hn m i) (numbering hn m j)
  rw [numbering_val, numbering_val, ← entry_map C (List.getElem_mem hi) (List.getElem_mem hj), hn.idxOf_getElem,
    hn.idxOf_getElem]

theorem det_toMatrix {vars : List V} (hn : vars.Nodup) (m : V → K) (C : V → V → K) :
    (toMatrix (vars.map m).length (vars.map fun v => vars.map (C v))).det = (covMatrix vars C).det := by
  rw [toMatrix_eq hn m C, det_submatrix_equiv_self]

theorem make_describes {vars : List V} (hn : vars.Nodup) (m : V → K) (C : V → V → K) (hd : (covMatrix vars C).det ≠ 0) :
    make vars (vars.map m) (vars.map fun v => vars.map (C v)) = .ok ⟨vars, vars.map m, vars.map fun v => vars.map (C v)⟩ := by
  rw [make, if_pos ⟨by simp, by simp⟩, if_neg (by rw [det_toMatrix hn m C]; exact hd)]

theorem eliminate_ok {N : Normal V K} {m : V → K} {C : V → V → K} (hN : Describes N m C) {var : List V}
    (hv : ∀ v ∈ var, v ∈ N.vars) (hd : (covMatrix (N.vars.filter fun v => decide (v ∉ var)) C).det ≠ 0) :
    ∃ r, eliminate N var = .ok r ∧ r.Describes m C ∧ r.vars = N.vars.filter fun v => decide (v ∉ var) := by
  obtain ⟨vars, mu, Sigma⟩ := N
  obtain ⟨hn, h1, h2⟩ := hN
  dsimp only at *
  subst h1 h2
  rw [eliminate]
  dsimp only
  rw [prepare_ok hn hv]
  show ∃ r, (if delete (vars.map m) (var.map fun v => vars.idxOf v) = [] then _ else _) = _ ∧ _
  rw [delete_map hn hv]
  have hS : (delete (vars.map fun v => vars.map (C v)) (var.map fun v => vars.idxOf v)).map
      (fun r => delete r (var.map fun v => vars.idxOf v)) = (vars.filter fun v => decide (v ∉ var)).map fun v =>
        (vars.filter fun v => decide (v ∉ var)).map (C v) := by
    rw [delete_map hn hv, List.map_map]
    refine List.map_congr_left fun v _ => ?_
    exact delete_map hn hv (C v)
  split_ifs with h0
  · refine ⟨.one, rfl, trivial, ?_⟩
    rw [List.map_eq_nil_iff] at h0
    rw [h0]
    rfl
  · refine ⟨.normal ⟨vars.filter fun v => decide (v ∉ var), (vars.filter fun v => decide (v ∉ var)).map m,
      (vars.filter fun v => decide (v ∉ var)).map fun v => (vars.filter fun v => decide (v ∉ var)).map (C v)⟩, ?_, ?_, rfl⟩
    · show (make (takeIdx vars ((vars.filter fun v => decide (v ∉ var)).map fun v => vars.idxOf v)) _ _ >>= _) = _
      rw [hS, takeIdx_self (fun v hv' => (mem_rest.1 hv').1), make_describes (hn.filter _) m C hd]
      rfl
    · exact ⟨hn.filter _, rfl, rfl⟩

theorem describes_ext {N M : Normal V K} {m : V → K} {C : V → V → K} (hN : Describes N m C) (hM : Describes M m C)
    (h : N.vars = M.vars) : N = M := by
  obtain ⟨vars, mu, Sigma⟩ := N
  obtain ⟨vars', mu', Sigma'⟩ := M
  obtain ⟨-, h1, h2⟩ := hN
  obtain ⟨-, h3, h4⟩ := hM
  dsimp only at *
  subst h h1 h2 h3 h4
  rfl

/-! ### conditioning -/

theorem fancy_length {S : List (List K)} {r c : List ℕ} {l : List K} (hr : r ≠ []) (hc : c ≠ []) (h : fancy S r c = .ok l) :
    l.length = max r.length c.length := by
  have h1 := List.length_pos_iff.2 hr
  have h2 := List.length_pos_iff.2 hc
  unfold fancy at h
  split_ifs at h with h0
  · cases h
    simp [h0]
  · split at h
    · cases h
      simp only [List.length_map, List.length_singleton]
      omega
    · cases h
      simp only [List.length_map, List.length_singleton]
      omega
    · cases h

theorem bcast_length {op : K → K → K} {l m r : List K} (hl : l ≠ []) (hm : m ≠ []) (h : bcast op l m = .ok r) :
    r.length = max l.length m.length := by
  have h1 := List.length_pos_iff.2 hl
  have h2 := List.length_pos_iff.2 hm
  unfold bcast at h
  split_ifs at h with h0
  · cases h
    simp [h0]
  · split at h
    · cases h
      simp only [List.length_map, List.length_singleton]
      omega
    · cases h
      simp only [List.length_map, List.length_singleton]
      omega
    · cases h

theorem invRow_length {pinv : List K → List K} (hp : ∀ s, (pinv s).length = s.length) {s i : List K}
    (h : invRow pinv s = .ok i) : i.length = s.length := by
  unfold invRow at h
  split at h
  · split_ifs at h
    cases h
    rfl
  · cases h
    exact hp s

theorem condition_shapes {pinv : List K → List K} (hp : ∀ s, (pinv s).length = s.length) {N M : Normal V K}
    {m : V → K} {C : V → V → K} (hN : Describes N m C) {var : List V} (hv : ∀ v ∈ var, v ∈ N.vars) (h0 : var ≠ [])
    {X : List K} (hX : X.length = var.length) (h : condition pinv N var X = .ok (.normal M)) :
    var.length = 1 ∧ (N.vars.filter fun v => decide (v ∉ var)).length = 1 := by
  rw [condition, prepare_ok hN.nodup hv] at h
  obtain ⟨p, hpp, h⟩ := bindOk.1 h
  cases hpp
  dsimp only at h
  split_ifs at h with h1
  · cases h
  have h1' : (N.vars.filter fun v => decide (v ∉ var)) ≠ [] := fun e => h1 (by rw [e]; rfl)
  have h0' : var.map (fun v => N.vars.idxOf v) ≠ [] := fun e => h0 (List.map_eq_nil_iff.1 e)
  obtain ⟨S11, e11, h⟩ := bindOk.1 h
  obtain ⟨S12, e12, h⟩ := bindOk.1 h
  obtain ⟨S21, e21, h⟩ := bindOk.1 h
  obtain ⟨S22, e22, h⟩ := bindOk.1 h
  obtain ⟨I22, eI, h⟩ := bindOk.1 h
  obtain ⟨g, eg, h⟩ := bindOk.1 h
  obtain ⟨diff, ed, h⟩ := bindOk.1 h
  obtain ⟨mu, em, h⟩ := bindOk.1 h
  obtain ⟨Sig, es, h⟩ := bindOk.1 h
  obtain ⟨M', eM, h⟩ := bindOk.1 h
  have l12 := fancy_length h1 h0' e12
  have l22 := fancy_length h0' h0' e22
  have lI := invRow_length hp eI
  have lg : S12.length = I22.length := by
    rw [rowCol] at eg
    split_ifs at eg with hh
    exact hh
  have hmv : takeIdx N.mu (var.map fun v => N.vars.idxOf v) = var.map m := by rw [hN.mu, takeIdx_map hv]
  have hmc : takeIdx N.mu ((N.vars.filter fun v => decide (v ∉ var)).map fun v => N.vars.idxOf v) =
      (N.vars.filter fun v => decide (v ∉ var)).map m := by
    rw [hN.mu, takeIdx_map fun v hv' => (mem_rest.1 hv').1]
  have hXne : X ≠ [] := by
    rintro rfl
    exact h0 (List.eq_nil_of_length_eq_zero hX.symm)
  rw [hmv] at ed
  rw [hmc] at em
  have ld := bcast_length hXne (by simpa using h0) ed
  have hdne : diff.map (fun x => g * x) ≠ [] := by
    intro e
    rw [List.map_eq_nil_iff] at e
    rw [e] at ld
    have := List.length_pos_iff.2 h0
    simp only [List.length_nil, List.length_map, hX] at ld
    omega
  have lm := bcast_length (fun e => h1' (List.map_eq_nil_iff.1 e)) hdne em
  have hmu : mu.length = 1 := by
    rw [make] at eM
    split_ifs at eM with hh
    exact hh.1.symm
  simp only [List.length_map] at *
  have p1 := List.length_pos_iff.2 h0
  have p2 := List.length_pos_iff.2 h1'
  rw [ld, hX] at lm
  omega

theorem condition_two {pinv : List K → List K} {N : Normal V K} {m : V → K} {C : V → V → K} (hN : Describes N m C)
    {v c : V} (hv : v ∈ N.vars) (hc : N.vars.filter (fun w => decide (w ∉ [v])) = [c]) (hvv : C v v ≠ 0)
    (hq : C c c - C c v / C v v * C v c ≠ 0) (x : K) :
    condition pinv N [v] [x] = .ok (.normal ⟨[c], [m c + C c v / C v v * (x - m v)], [[C c c - C c v / C v v * C v c]]⟩) := by
  have hcm : c ∈ N.vars := (mem_rest.1 (by rw [hc]; simp : c ∈ N.vars.filter fun w => decide (w ∉ [v]))).1
  have hvs : ∀ w ∈ [v], w ∈ N.vars := by simpa using hv
  have hcs : ∀ w ∈ [c], w ∈ N.vars := by simpa using hcm
  have hent : ∀ a b, a ∈ N.vars → b ∈ N.vars →
      fancy N.Sigma [N.vars.idxOf a] [N.vars.idxOf b] = .ok [C a b] := by
    intro a b ha hb
    rw [fancy, if_pos (by simp), hN.Sigma]
    simp only [List.zipWith_cons_cons, List.zipWith_nil_right, entry_map C ha hb]
  have hmv : takeIdx N.mu [N.vars.idxOf v] = [m v] := by rw [hN.mu]; exact takeIdx_map hvs m
  have hmc : takeIdx N.mu [N.vars.idxOf c] = [m c] := by rw [hN.mu]; exact takeIdx_map hcs m
  have hvc : takeIdx N.vars [N.vars.idxOf c] = [c] := takeIdx_self hcs
  rw [condition, prepare_ok hN.nodup hvs, hc]
  refine bindOk.2 ⟨_, rfl, ?_⟩
  rw [if_neg (by simp)]
  refine bindOk.2 ⟨_, hent c c hcm hcm, bindOk.2 ⟨_, hent c v hcm hv, bindOk.2 ⟨_, hent v c hv hcm,
    bindOk.2 ⟨_, hent v v hv hv, bindOk.2 ⟨[1 / C v v], ?_, bindOk.2 ⟨C c v / C v v, ?_, bindOk.2 ⟨[x - m v], ?_,
    bindOk.2 ⟨[m c + C c v / C v v * (x - m v)], ?_, bindOk.2 ⟨[C c c - C c v / C v v * C v c], ?_,
    bindOk.2 ⟨_, ?_, rfl⟩⟩⟩⟩⟩⟩⟩⟩⟩⟩
  · rw [invRow, if_neg hvv]
  · rw [rowCol, if_pos (by simp)]
    simp [div_eq_mul_inv]
  · show bcast _ [x] (takeIdx N.mu [N.vars.idxOf v]) = _
    rw [hmv]
    rfl
  · show bcast _ (takeIdx N.mu [N.vars.idxOf c]) _ = _
    rw [hmc]
    rfl
  · rfl
  · show make (takeIdx N.vars [N.vars.idxOf c]) _ _ = _
    rw [hvc, make, if_pos (by simp), if_neg]
    have : (toMatrix [m c + C c v / C v v * (x - m v)].length [[C c c - C c v / C v v * C v c]]).det =
        C c c - C c v / C v v * C v c := by
      show Matrix.det (n := Fin 1) _ = _
      rw [det_fin_one]
      rfl
    rw [this]
    exact hq

end Field

/-! ### densities -/

section Density
variable {V : Type} [DecidableEq V]

theorem pdf_eq {N : Normal V ℝ} {m : V → ℝ} {C : V → V → ℝ} (hN : Describes N m C) (σ : V → ℝ) :
    N.dens σ = normalDens N.vars m C σ := by
  obtain ⟨vars, mu, Sigma⟩ := N
  obtain ⟨hn, h1, h2⟩ := hN
  dsimp only at *
  subst h1 h2
  rw [normalDens, ← gdens_reindex (numbering hn m), ← toMatrix_eq hn m C, gdens, Fintype.card_fin]
  have hx : (fun i : Fin (vars.map m).length => (vars.map σ).getD i.1 0 - (vars.map m).getD i.1 0) =
      (fun v : {v // v ∈ vars} => σ v - m v) ∘ numbering hn m := by
    funext i
    have hi : i.1 < vars.length := by simpa using i.2
    show _ = σ (numbering hn m i) - m (numbering hn m i)
    rw [numbering_val]
    simp [List.getD_eq_getElem?_getD, List.getElem?_eq_getElem hi]
  rw [← hx]
  rfl

theorem normalDens_congr {vars vars' : List V} (h : ∀ w, w ∈ vars ↔ w ∈ vars') (m : V → ℝ) (C : V → V → ℝ) (σ : V → ℝ) :
    normalDens vars m C σ = normalDens vars' m C σ := by
  rw [normalDens, normalDens, ← gdens_reindex (Equiv.subtypeEquivRight h)]
  rfl

theorem normalDens_nil (m : V → ℝ) (C : V → V → ℝ) (σ : V → ℝ) : normalDens [] m C σ = 1 := by
  have : IsEmpty {v : V // v ∈ ([] : List V)} := ⟨fun v => by simpa using v.2⟩
  rw [normalDens, gdens, det_isEmpty, Fintype.card_eq_zero]
  simp [dotProduct]

theorem posDef_sub {vars vars' : List V} {C : V → V → ℝ} (h : (covMatrix vars C).PosDef) (hs : ∀ w ∈ vars', w ∈ vars) :
    (covMatrix vars' C).PosDef :=
  h.submatrix (e := fun w : {v // v ∈ vars'} => (⟨w.1, hs w.1 w.2⟩ : {v // v ∈ vars}))
    (fun a b hab => Subtype.ext (congrArg (fun w : {v // v ∈ vars} => w.1) hab))

theorem posDef_symm {vars : List V} {C : V → V → ℝ} (h : (covMatrix vars C).PosDef) {v w : V} (hv : v ∈ vars)
    (hw : w ∈ vars) : C v w = C w v := by
  have := h.1.apply ⟨v, hv⟩ ⟨w, hw⟩
  simpa [covMatrix] using this.symm

/-- one variable and the others -/
noncomputable def splitVar {vars vars' : List V} {v : V} (h : ∀ w, w ∈ vars ↔ w = v ∨ w ∈ vars') (hv : v ∉ vars') :
    Unit ⊕ {w // w ∈ vars'} ≃ {w // w ∈ vars} :=
  Equiv.ofBijective (Sum.elim (fun _ => ⟨v, (h v).2 (Or.inl rfl)⟩) fun w => ⟨w, (h w).2 (Or.inr w.2)⟩) (by
    constructor
    · rintro (a | a) (b | b) hab
      · rfl
      · have e : v = b.1 := congrArg Subtype.val hab
        exact absurd (e ▸ b.2) hv
      · have e : a.1 = v := congrArg Subtype.val hab
        exact absurd (e ▸ a.2) hv
      · exact congrArg Sum.inr (Subtype.ext (congrArg (fun w : {w // w ∈ vars} => w.1) hab))
    · rintro ⟨w, hw⟩
      rcases (h w).1 hw with rfl | hw'
      · exact ⟨Sum.inl (), rfl⟩
      · exact ⟨Sum.inr ⟨w, hw'⟩, rfl⟩)

/-- the variance of one variable -/
def varMat (C : V → V → ℝ) (v : V) : Matrix Unit Unit ℝ := Matrix.of fun _ _ => C v v

/-- the covariances of one variable with the others -/
def colMat (vars : List V) (C : V → V → ℝ) (v : V) : Matrix Unit {w // w ∈ vars} ℝ := Matrix.of fun _ w => C v w.1

theorem cov_split {vars vars' : List V} {v : V} (h : ∀ w, w ∈ vars ↔ w = v ∨ w ∈ vars') (hv : v ∉ vars') {C : V → V → ℝ}
    (hC : (covMatrix vars C).PosDef) :
    (covMatrix vars C).submatrix (splitVar h hv) (splitVar h hv) =
      fromBlocks (varMat C v) (colMat vars' C v) (colMat vars' C v)ᵀ (covMatrix vars' C) := by
  ext i j
  rcases i with i | i <;> rcases j with j | j
  · rfl
  · rfl
  · exact posDef_symm hC ((h _).2 (Or.inr i.2)) ((h _).2 (Or.inl rfl))
  · rfl

theorem arg_split {vars vars' : List V} {v : V} (h : ∀ w, w ∈ vars ↔ w = v ∨ w ∈ vars') (hv : v ∉ vars') (m : V → ℝ)
    (σ : V → ℝ) (t : ℝ) :
    (fun w : {w // w ∈ vars} => update σ v t w - m w) ∘ splitVar h hv =
      Sum.elim (fun _ => t - m v) fun w : {w // w ∈ vars'} => σ w - m w := by
  funext i
  rcases i with i | i
  · show update σ v t v - m v = t - m v
    rw [update_self]
  · show update σ v t i.1 - m i.1 = σ i.1 - m i.1
    rw [update_of_ne]
    intro e
    exact hv (e ▸ i.2)

theorem integral_normalDens {vars vars' : List V} {v : V} (h : ∀ w, w ∈ vars ↔ w = v ∨ w ∈ vars') (hv : v ∉ vars')
    {m : V → ℝ} {C : V → V → ℝ} (hC : (covMatrix vars C).PosDef) (σ : V → ℝ) :
    ∫ t, normalDens vars m C (update σ v t) = normalDens vars' m C σ := by
  have h1 : ∀ t, normalDens vars m C (update σ v t) =
      gdens (fromBlocks (varMat C v) (colMat vars' C v) (colMat vars' C v)ᵀ (covMatrix vars' C))
        (Sum.elim (fun _ => t - m v) fun w : {w // w ∈ vars'} => σ w - m w) := by
    intro t
    rw [normalDens, ← gdens_reindex (splitVar h hv), arg_split, cov_split h hv hC]
  simp only [h1]
  rw [MeasureTheory.integral_sub_right_eq_self (fun t => gdens (fromBlocks (varMat C v) (colMat vars' C v) (colMat vars' C v)ᵀ (covMatrix vars' C))
        (Sum.elim (fun _ => t) fun w : {w // w ∈ vars'} => σ w - m w)) (m v)]
  rw [integral_gdens, normalDens]
  rw [← cov_split h hv hC]
  exact hC.submatrix (splitVar h hv).injective

theorem integ_normalDens {m : V → ℝ} {C : V → V → ℝ} : ∀ (order vars vars' : List V), order.Nodup →
    (∀ w, w ∈ vars ↔ w ∈ order ∨ w ∈ vars') → (∀ w ∈ order, w ∉ vars') → (covMatrix vars C).PosDef → ∀ σ,
    integ realInt order (normalDens vars m C) σ = normalDens vars' m C σ
  | [], vars, vars', _, h, _, _, σ => normalDens_congr (by simpa using h) m C σ
  | v :: order, vars, vars', hn, h, hd, hC, σ => by
    obtain ⟨hv, hn⟩ := List.nodup_cons.1 hn
    have h1 : ∀ w, w ∈ vars ↔ w = v ∨ w ∈ order ++ vars' := by
      intro w
      rw [h w, List.mem_cons, List.mem_append, or_assoc]
    have h2 : v ∉ order ++ vars' := by
      rw [List.mem_append, not_or]
      exact ⟨hv, hd v (by simp)⟩
    rw [integ]
    have h3 : (fun τ => realInt v fun x => normalDens vars m C (update τ v x)) = normalDens (order ++ vars') m C := by
      funext τ
      exact integral_normalDens h1 h2 hC τ
    rw [h3]
    exact integ_normalDens order (order ++ vars') vars' hn (by simp) (fun w hw => hd w (by simp [hw]))
      (posDef_sub hC fun w hw => (h1 w).2 (Or.inr hw)) σ

theorem normalDens_one {c : V} {m : V → ℝ} {C : V → V → ℝ} (hc : 0 < C c c) (σ : V → ℝ) :
    normalDens [c] m C σ = ProbabilityTheory.gaussianPDFReal (m c) (Real.toNNReal (C c c)) (σ c) := by
  have e : Unit ≃ {w // w ∈ [c]} := Equiv.ofBijective (fun _ => ⟨c, by simp⟩) (by
    constructor
    · intro a b _; rfl
    · rintro ⟨w, hw⟩
      exact ⟨(), Subtype.ext (List.mem_singleton.1 hw).symm⟩)
  have hval : ∀ u, ((e u : {w // w ∈ [c]}) : V) = c := fun u => List.mem_singleton.1 (e u).2
  rw [normalDens, ← gdens_reindex e]
  have h1 : (covMatrix [c] C).submatrix e e () () = C c c := by
    show C (e ()) (e ()) = _
    rw [hval]
  have h2 : (fun w : {w // w ∈ [c]} => σ w - m w) ∘ e = fun _ => σ c - m c := by
    funext u
    show σ (e u) - m (e u) = _
    rw [hval]
  rw [h2, gdens_unit (by rw [h1]; exact hc), h1]

/-- two variables: the joint density is the density of one times the conditional density of the other -/
theorem normalDens_two {vars : List V} {v c : V} (h : ∀ w, w ∈ vars ↔ w = c ∨ w ∈ [v]) (hvc : c ∉ [v])
    {m : V → ℝ} {C : V → V → ℝ} (hC : (covMatrix vars C).PosDef) (σ : V → ℝ) :
    0 < C v v ∧ 0 < C c c - C c v / C v v * C v c ∧
    normalDens vars m C σ = ProbabilityTheory.gaussianPDFReal (m c + C c v / C v v * (σ v - m v))
      (Real.toNNReal (C c c - C c v / C v v * C v c)) (σ c) * normalDens [v] m C σ := by
  have hvm : v ∈ vars := (h v).2 (Or.inr (by simp))
  have hcm : c ∈ vars := (h c).2 (Or.inl rfl)
  have hvv : 0 < C v v := hC.diag_pos (i := ⟨v, hvm⟩)
  obtain ⟨A, hA⟩ : ∃ A, A = varMat C c := ⟨_, rfl⟩
  obtain ⟨B, hB⟩ : ∃ B, B = colMat [v] C c := ⟨_, rfl⟩
  obtain ⟨D, hD⟩ : ∃ D, D = covMatrix [v] C := ⟨_, rfl⟩
  have hsplit := cov_split h hvc hC
  rw [← hA, ← hB, ← hD] at hsplit
  have hS : (fromBlocks A B Bᵀ D).PosDef := by
    rw [← hsplit]
    exact hC.submatrix (splitVar h hvc).injective
  have hDp : D.PosDef := hS.submatrix (e := Sum.inr) Sum.inr_injective
  have hDt : Dᵀ = D := by
    have := hDp.1
    rwa [IsHermitian, conjTranspose_eq_transpose_of_trivial] at this
  have hQ : 0 < (schur A B D).det := by
    have := hS.det_pos
    rw [det_blocks _ _ hDp.det_pos.ne'] at this
    exact (pos_iff_pos_of_mul_pos this).1 hDp.det_pos
  have : Unique {w // w ∈ [v]} := ⟨⟨⟨v, by simp⟩⟩, fun w => Subtype.ext (List.mem_singleton.1 w.2)⟩
  have hdef : ((default : {w // w ∈ [v]}) : V) = v := List.mem_singleton.1 (default : {w // w ∈ [v]}).2
  have hDinv : D⁻¹ default default = (C v v)⁻¹ := by
    rw [inv_subsingleton]
    simp only [diagonal_apply, if_true]
    rw [hD]
    show Ring.inverse (C (default : {w // w ∈ [v]}) (default : {w // w ∈ [v]})) = _
    rw [hdef, Ring.inverse_eq_inv']
  have hBD : ∀ w, (B * D⁻¹) () w = C c v / C v v := by
    intro w
    rw [Subsingleton.elim w default, Matrix.mul_apply, Fintype.sum_unique, hDinv, hB]
    show C c (default : {w // w ∈ [v]}) * _ = _
    rw [hdef, div_eq_mul_inv]
  have hq : schur A B D () () = C c c - C c v / C v v * C v c := by
    rw [schur, Matrix.sub_apply, hA, Matrix.mul_apply, Fintype.sum_unique, hBD, transpose_apply, hB]
    show C c c - C c v / C v v * C c (default : {w // w ∈ [v]}) = _
    rw [hdef, posDef_symm hC hvm hcm]
  have hq' : 0 < schur A B D () () := by
    rw [det_unique] at hQ
    exact hQ
  refine ⟨hvv, by rw [← hq]; exact hq', ?_⟩
  have hσ : update σ c (σ c) = σ := update_eq_self c σ
  have harg := arg_split h hvc m σ (σ c)
  rw [hσ] at harg
  rw [normalDens, ← gdens_reindex (splitVar h hvc), harg, hsplit, gdens_blocks _ _ hDt hDp.det_pos hQ, normalDens, ← hD]
  congr 1
  rw [← hq, ← gdens_unit hq']
  congr 1
  funext u
  show σ c - m c - ((B * D⁻¹) *ᵥ fun w : {w // w ∈ [v]} => σ w - m w) u = _
  rw [mulVec, dotProduct, Fintype.sum_unique, hBD]
  show σ c - m c - C c v / C v v * (σ (default : {w // w ∈ [v]}) - m (default : {w // w ∈ [v]})) = _
  rw [hdef]
  ring

end Density

end Pacal.NDNormal
