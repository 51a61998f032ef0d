import Verif.NDim.Spec
import Mathlib.Algebra.BigOperators.Group.List.Lemmas
import Mathlib.Algebra.BigOperators.Ring.List
import Mathlib.Algebra.Order.Ring.Abs
import Mathlib.Data.List.Perm.Basic
import Mathlib.Tactic.Ring
import Mathlib.Tactic.FieldSimp

/-!
Lemmas for products of factors.
-/

set_option linter.unusedSectionVars false

namespace Pacal.NDim
open Function

theorem bind_ok {α β : Type} {x : Except NErr α} {f : α → Except NErr β} {r : β} :
    (x >>= f) = .ok r ↔ ∃ a, x = .ok a ∧ f a = .ok r := by
  cases x with
  | error e =>
    constructor
    · intro h
      cases h
    · rintro ⟨a, h, -⟩
      cases h
  | ok a => exact ⟨fun h => ⟨a, rfl, h⟩, fun ⟨b, h, h'⟩ => by cases h; exact h'⟩

variable {V K : Type} [LinearOrder K] [Field K]

/-! ### masks -/

theorem foldl_and (ms : List Bool) (m : Bool) : ms.foldl (fun mask i => mask && i) m = (m && ms.all id) := by
  induction ms generalizing m with
  | nil => simp
  | cons a ms ih => rw [List.foldl_cons, ih, List.all_cons, Bool.and_assoc]; rfl

theorem foldl_or (ms : List Bool) (m : Bool) : ms.foldl (fun mask i => mask || i) m = (m || ms.any id) := by
  induction ms generalizing m with
  | nil => simp
  | cons a ms ih => rw [List.foldl_cons, ih, List.any_cons, Bool.or_assoc]; rfl

theorem arrayMask_eq (dims : List (Dim V K)) (X : List K) :
    arrayMask dims X = (List.zipWith Dim.inside dims X).all id := by
  rw [arrayMask]
  split
  · rename_i h; rw [h]; rfl
  · rename_i m ms h; rw [h, foldl_and, List.all_cons]; rfl

theorem scalarMask_eq {dims : List (Dim V K)} {X : List K} (h : List.zipWith Dim.inside dims X ≠ []) :
    scalarMask dims X = (List.zipWith Dim.inside dims X).any id := by
  rw [scalarMask]
  split
  · rename_i h'; exact absurd h' h
  · rename_i m ms h; rw [h, foldl_or, List.any_cons]; rfl

theorem zipWith_map (dims : List (Dim V K)) (σ : V → K) :
    List.zipWith Dim.inside dims ((dims.map Dim.var).map σ) = dims.map fun d => d.inside (σ d.var) := by
  induction dims with
  | nil => rfl
  | cons d ds ih => rw [List.map_cons, List.map_cons, List.zipWith_cons_cons, ih]; rfl

theorem inside_iff {d : Dim V K} {x : K} : d.inside x = true ↔ d.a ≤ Ext.fin x ∧ Ext.fin x ≤ d.b := by
  rw [Dim.inside, Bool.and_eq_true, decide_eq_true_eq, decide_eq_true_eq]

theorem Fac.inside_all {f : Fac V K} {σ : V → K} :
    f.Inside σ ↔ ∀ d ∈ f.dims, d.inside (σ d.var) = true := by
  refine forall₂_congr fun d _ => ?_
  rw [inside_iff]

theorem Fac.mask_iff {f : Fac V K} {σ : V → K} : arrayMask f.dims (f.vars.map σ) = true ↔ f.Inside σ := by
  rw [arrayMask_eq, Fac.vars, zipWith_map, Fac.inside_all, List.all_map, List.all_eq_true]
  rfl

theorem Fac.post_zero (f : Fac V K) : f.post 0 = 0 := by
  rw [Fac.post]
  split_ifs
  · show max (0 : K) (-0) = 0
    rw [neg_zero, max_self]
  · rfl

theorem Fac.dens_in {f : Fac V K} {σ : V → K} (h : f.Inside σ) : f.dens σ = f.post (f.fn (f.vars.map σ)) := by
  rw [Fac.dens, Fac.call]
  split_ifs with h1 h2
  · rfl
  · rfl
  · exact absurd (Fac.mask_iff.2 h) h2

theorem Fac.dens_out {f : Fac V K} {σ : V → K} (h : ¬ f.Inside σ) : f.dens σ = 0 := by
  rw [Fac.dens, Fac.call]
  split_ifs with h1 h2
  · refine absurd ?_ h
    intro d hd
    have : d.var ∈ f.vars := List.mem_map.2 ⟨d, hd, rfl⟩
    rw [List.map_eq_nil_iff] at h1
    rw [h1] at this
    simp at this
  · exact absurd (Fac.mask_iff.1 h2) h
  · exact f.post_zero

theorem Fac.dens_congr {f : Fac V K} {σ τ : V → K} (h : ∀ v ∈ f.vars, σ v = τ v) : f.dens σ = f.dens τ := by
  rw [Fac.dens, Fac.dens, List.map_congr_left h]

theorem joint_congr {fs : List (Fac V K)} {σ τ : V → K} (h : ∀ f ∈ fs, ∀ v ∈ f.vars, σ v = τ v) :
    joint fs σ = joint fs τ := by
  rw [joint, joint, List.map_congr_left fun f hf => Fac.dens_congr (h f hf)]

theorem joint_cons (f : Fac V K) (fs : List (Fac V K)) (σ : V → K) : joint (f :: fs) σ = f.dens σ * joint fs σ := by
  rw [joint, List.map_cons, List.prod_cons]
  rfl

theorem joint_nil (σ : V → K) : joint ([] : List (Fac V K)) σ = 1 := rfl

theorem joint_append (fs gs : List (Fac V K)) (σ : V → K) : joint (fs ++ gs) σ = joint fs σ * joint gs σ := by
  rw [joint, List.map_append, List.prod_append]
  rfl

theorem joint_zero {fs : List (Fac V K)} {f : Fac V K} (hf : f ∈ fs) {σ : V → K} (h : f.dens σ = 0) :
    joint fs σ = 0 := by
  rw [joint]
  exact List.prod_eq_zero (List.mem_map.2 ⟨f, hf, h⟩)

theorem Fac.WF.dens_one {f : Fac V K} (hf : f.WF) (h : f.kind = .one) (σ : V → K) : f.dens σ = 1 := by
  obtain ⟨h1, h2, h3⟩ := hf.one h
  have hv : f.vars = [] := by rw [Fac.vars, h1]; rfl
  rw [Fac.dens, hv, Fac.call]
  simp [Fac.post, h2, h3]

theorem Fac.WF.dens_const {f : Fac V K} (hf : f.WF) {c : K} (h : f.kind = .const c) (σ : V → K) : f.dens σ = c := by
  obtain ⟨h1, h2, h3⟩ := hf.const c h
  have hv : f.vars = [] := by rw [Fac.vars, h1]; rfl
  rw [Fac.dens, hv, Fac.call]
  simp [Fac.post, h2, h3]

theorem ofConst_wf (c : K) : (Fac.ofConst c : Fac V K).WF where
  nodup := List.nodup_nil
  one h := by cases h
  const d h := by cases h; exact ⟨rfl, rfl, rfl⟩

theorem ofOne_wf : (Fac.ofOne : Fac V K).WF where
  nodup := List.nodup_nil
  one h := ⟨rfl, rfl, rfl⟩
  const d h := by cases h

theorem dens_ofConst (c : K) (σ : V → K) : (Fac.ofConst c : Fac V K).dens σ = c := (ofConst_wf c).dens_const rfl σ

theorem dens_ofOne (σ : V → K) : (Fac.ofOne : Fac V K).dens σ = 1 := ofOne_wf.dens_one rfl σ

/-! ### `optimize` -/

variable [DecidableEq V]

/-- one step of `optimize` -/
def optStep (s : List (Fac V K) × K) (f : Fac V K) : List (Fac V K) × K :=
  match f.kind with
  | .one => s
  | .const c => (s.1, s.2 * c)
  | .gen => (s.1 ++ [f], s.2)

theorem gens_cons (f : Fac V K) (fs : List (Fac V K)) :
    gens (f :: fs) = match f.kind with
      | .gen => f :: gens fs
      | _ => gens fs := by
  rw [gens, List.filter_cons]
  cases h : f.kind <;> simp [gens]

theorem mem_gens {f : Fac V K} {fs : List (Fac V K)} : f ∈ gens fs ↔ f ∈ fs ∧ f.kind = .gen := by
  rw [gens, List.mem_filter]
  refine and_congr_right fun _ => ?_
  cases f.kind <;> simp

theorem optStep_fst (fs : List (Fac V K)) (s : List (Fac V K) × K) : (fs.foldl optStep s).1 = s.1 ++ gens fs := by
  induction fs generalizing s with
  | nil => simp [gens]
  | cons f fs ih =>
    rw [List.foldl_cons, ih, gens_cons, optStep]
    cases f.kind <;> simp

theorem optStep_joint {fs : List (Fac V K)} (hfs : ∀ f ∈ fs, f.WF) (s : List (Fac V K) × K) (σ : V → K) :
    joint (gens fs) σ * (fs.foldl optStep s).2 = s.2 * joint fs σ := by
  induction fs generalizing s with
  | nil => simp [gens, joint]
  | cons f fs ih =>
    have hf := hfs f (by simp)
    have ih := fun s => ih (fun g hg => hfs g (by simp [hg])) s
    rw [List.foldl_cons, gens_cons, joint_cons, optStep]
    cases hk : f.kind with
    | one => dsimp only; rw [ih, hf.dens_one hk, one_mul]
    | const c => dsimp only; rw [ih, hf.dens_const hk, mul_assoc]
    | gen => dsimp only; rw [joint_cons, mul_assoc, ih]; ring

theorem optimize_eq (fs : List (Fac V K)) :
    optimize fs = gens fs ++ if (fs.foldl optStep ([], 1)).2 ≠ 1 then [Fac.ofConst (fs.foldl optStep ([], 1)).2] else [] := by
  have h : optimize fs = if (fs.foldl optStep ([], 1)).2 ≠ 1 then
      (fs.foldl optStep ([], 1)).1 ++ [Fac.ofConst (fs.foldl optStep ([], 1)).2] else (fs.foldl optStep ([], 1)).1 := rfl
  rw [h, optStep_fst, List.nil_append]
  split_ifs <;> simp

theorem joint_optimize {fs : List (Fac V K)} (hfs : ∀ f ∈ fs, f.WF) (σ : V → K) : joint (optimize fs) σ = joint fs σ := by
  have := optStep_joint hfs ([], 1) σ
  rw [one_mul] at this
  rw [optimize_eq, joint_append]
  split_ifs with h
  · rw [joint_cons, dens_ofConst, joint_nil, mul_one, this]
  · rw [← this, joint_nil, not_not.1 h]

theorem optimize_wf {fs : List (Fac V K)} (hfs : ∀ f ∈ fs, f.WF) : ∀ f ∈ optimize fs, f.WF := by
  intro f hf
  rw [optimize_eq] at hf
  rcases List.mem_append.1 hf with h | h
  · exact hfs f (mem_gens.1 h).1
  · split_ifs at h with h1
    · rw [List.mem_singleton.1 h]
      exact ofConst_wf _
    · simp at h

theorem gens_dims {fs : List (Fac V K)} (hfs : ∀ f ∈ fs, f.WF) : (gens fs).flatMap Fac.dims = fs.flatMap Fac.dims := by
  induction fs with
  | nil => rfl
  | cons f fs ih =>
    have hf := hfs f (by simp)
    have ih := ih fun g hg => hfs g (by simp [hg])
    rw [gens_cons, List.flatMap_cons]
    cases hk : f.kind with
    | one => dsimp only; rw [ih, (hf.one hk).1, List.nil_append]
    | const c => dsimp only; rw [ih, (hf.const c hk).1, List.nil_append]
    | gen => dsimp only; rw [List.flatMap_cons, ih]

theorem optimize_dims {fs : List (Fac V K)} (hfs : ∀ f ∈ fs, f.WF) :
    (optimize fs).flatMap Fac.dims = fs.flatMap Fac.dims := by
  rw [optimize_eq, List.flatMap_append, gens_dims hfs]
  split_ifs
  · simp [Fac.ofConst]
  · simp

theorem mem_flatMap_vars {fs : List (Fac V K)} {v : V} :
    v ∈ fs.flatMap Fac.vars ↔ ∃ e ∈ fs.flatMap Fac.dims, e.var = v := by
  simp only [List.mem_flatMap, Fac.vars, List.mem_map]
  constructor
  · rintro ⟨f, hf, e, he, h⟩
    exact ⟨e, ⟨f, hf, he⟩, h⟩
  · rintro ⟨e, ⟨f, hf, he⟩, h⟩
    exact ⟨f, hf, e, he, h⟩

theorem mem_dims_iff {fs : List (Fac V K)} {v : V} :
    (∃ e ∈ fs.flatMap Fac.dims, e.var = v) ↔ ∃ f ∈ fs, v ∈ f.vars := by
  rw [← mem_flatMap_vars, List.mem_flatMap]

/-! ### products -/

namespace Product

theorem meet_fold (l : List (Dim V K)) (v : V) (d : Dim V K) (hd : d.var = v) (x : K) :
    (l.foldl (fun d e => if e.var = v then ⟨v, max d.a e.a, min d.b e.b⟩ else d) d).var = v ∧
    ((l.foldl (fun d e => if e.var = v then ⟨v, max d.a e.a, min d.b e.b⟩ else d) d).inside x = true ↔
      d.inside x = true ∧ ∀ e ∈ l, e.var = v → e.inside x = true) := by
  induction l generalizing d with
  | nil => exact ⟨hd, by simp⟩
  | cons e l ih =>
    rw [List.foldl_cons]
    by_cases he : e.var = v
    · rw [if_pos he]
      obtain ⟨h1, h2⟩ := ih ⟨v, max d.a e.a, min d.b e.b⟩ rfl
      refine ⟨h1, h2.trans ?_⟩
      rw [inside_iff, inside_iff]
      simp only [List.mem_cons, forall_eq_or_imp]
      rw [inside_iff, max_le_iff, le_min_iff]
      constructor
      · rintro ⟨⟨⟨a, b⟩, c, d⟩, h⟩
        exact ⟨⟨a, c⟩, fun _ => ⟨b, d⟩, h⟩
      · rintro ⟨⟨a, c⟩, h', h⟩
        exact ⟨⟨⟨a, (h' he).1⟩, c, (h' he).2⟩, h⟩
    · rw [if_neg he]
      obtain ⟨h1, h2⟩ := ih d hd
      refine ⟨h1, h2.trans ?_⟩
      simp only [List.mem_cons, forall_eq_or_imp]
      constructor
      · rintro ⟨a, b⟩
        exact ⟨a, fun h => absurd h he, b⟩
      · rintro ⟨a, -, b⟩
        exact ⟨a, b⟩

theorem meet_var (fs : List (Fac V K)) (v : V) : (meet fs v).var = v :=
  (meet_fold (fs.flatMap Fac.dims) v ⟨v, Ext.ninf, Ext.pinf⟩ rfl 0).1

theorem meet_inside (fs : List (Fac V K)) (v : V) (x : K) :
    (meet fs v).inside x = true ↔ ∀ e ∈ fs.flatMap Fac.dims, e.var = v → e.inside x = true := by
  refine (meet_fold (fs.flatMap Fac.dims) v ⟨v, Ext.ninf, Ext.pinf⟩ rfl x).2.trans ?_
  refine and_iff_right (inside_iff.2 ⟨bot_le, ?_⟩)
  exact WithBot.coe_le_coe.2 le_top

theorem mk'_ok {sort : List V → List V} {fs : List (Fac V K)} {P : Product V K} (h : mk' sort fs = .ok P) :
    fs ≠ [] ∧ P.vars = sort (fs.flatMap Fac.vars).dedup ∧ P.factors = optimize fs ∧
    P.dims = (sort (fs.flatMap Fac.vars).dedup).map (meet (optimize fs)) := by
  rw [mk'] at h
  split_ifs at h with h0
  cases h
  refine ⟨h0, ?_, rfl, rfl⟩
  show ((sort (fs.flatMap Fac.vars).dedup).map (meet (optimize fs))).map Dim.var = _
  rw [List.map_map]
  conv_rhs => rw [← List.map_id (sort (fs.flatMap Fac.vars).dedup)]
  exact List.map_congr_left fun v _ => meet_var _ v

theorem mk'_wf {sort : List V → List V} (hs : SortOk sort) {fs : List (Fac V K)} (hfs : ∀ f ∈ fs, f.WF) {P : Product V K}
    (h : mk' sort fs = .ok P) : P.WF ∧ (∀ v, v ∈ P.vars ↔ ∃ f ∈ fs, v ∈ f.vars) ∧
    (∀ σ, joint P.factors σ = joint fs σ) := by
  obtain ⟨h0, h1, h2, h3⟩ := mk'_ok h
  have hmem : ∀ v, v ∈ P.vars ↔ ∃ e ∈ fs.flatMap Fac.dims, e.var = v := by
    intro v
    rw [h1, (hs _).mem_iff, List.mem_dedup, mem_flatMap_vars]
  refine ⟨⟨?_, ?_, ?_, ?_⟩, fun v => (hmem v).trans mem_dims_iff, fun σ => ?_⟩
  · rw [h1]
    exact (hs _).nodup_iff.2 (List.nodup_dedup _)
  · rw [h2]
    exact optimize_wf hfs
  · intro v
    rw [hmem, h2, optimize_dims hfs]
  · intro d hd x
    rw [h3] at hd
    obtain ⟨v, -, rfl⟩ := List.mem_map.1 hd
    rw [meet_inside, h2, meet_var]
  · rw [h2, joint_optimize hfs]

theorem prepareVar_ok {vars vs : List V} (h : ∀ v ∈ vs, v ∈ vars) :
    prepareVar vars vs = .ok (vs.map fun v => vars.idxOf v) := by
  induction vs with
  | nil => rfl
  | cons v vs ih =>
    have ih := ih fun w hw => h w (by simp [hw])
    rw [prepareVar, List.mapM_cons, indexOf, if_pos (h v (by simp))]
    show (prepareVar vars vs >>= fun r => pure (vars.idxOf v :: r)) = _
    rw [ih]
    rfl

theorem pick_ok {vars vs : List V} (h : ∀ v ∈ vs, v ∈ vars) (σ : V → K) :
    pick (vars.map σ) (vs.map fun v => vars.idxOf v) = .ok (vs.map σ) := by
  induction vs with
  | nil => rfl
  | cons v vs ih =>
    have ih := ih fun w hw => h w (by simp [hw])
    have hv := h v (by simp)
    have h1 : (vars.map σ)[vars.idxOf v]? = some (σ v) := by
      rw [List.getElem?_map, List.getElem?_eq_getElem (List.idxOf_lt_length_iff.2 hv), List.getElem_idxOf]
      rfl
    rw [pick, List.map_cons, List.mapM_cons, h1]
    show (pick (vars.map σ) (vs.map fun v => vars.idxOf v) >>= fun r => pure (σ v :: r)) = _
    rw [ih]
    rfl

theorem pdf_fold (callF : Fac V K → List K → K) {vars : List V} (σ : V → K) : ∀ (fs : List (Fac V K)) (y : K),
    (∀ f ∈ fs, ∀ v ∈ f.vars, v ∈ vars) →
    fs.foldlM (fun y f => do
      let idx ← prepareVar vars f.vars
      let Xf ← pick (vars.map σ) idx
      pure (y * callF f Xf)) y = (.ok (y * (fs.map fun f => callF f (f.vars.map σ)).prod) : Except NErr K)
  | [], y, _ => by
    rw [List.foldlM_nil, List.map_nil, List.prod_nil, mul_one]
    rfl
  | f :: fs, y, h => by
    rw [List.foldlM_cons, prepareVar_ok (h f (by simp))]
    show (pick (vars.map σ) (f.vars.map fun v => vars.idxOf v) >>= fun Xf => pure (y * callF f Xf)) >>= _ = _
    rw [pick_ok (h f (by simp))]
    show fs.foldlM _ (y * callF f (f.vars.map σ)) = _
    rw [pdf_fold callF σ fs _ fun g hg => h g (by simp [hg]), List.map_cons, List.prod_cons, mul_assoc]

theorem WF.sub {P : Product V K} (h : P.WF) : ∀ f ∈ P.factors, ∀ v ∈ f.vars, v ∈ P.vars := by
  intro f hf v hv
  rw [h.mem, mem_dims_iff]
  exact ⟨f, hf, hv⟩

theorem pdf_ok {P : Product V K} (h : P.WF) (callF : Fac V K → List K → K) (σ : V → K) :
    P.pdf callF (P.vars.map σ) = .ok ((P.factors.map fun f => callF f (f.vars.map σ)).prod) := by
  rw [pdf, pdf_fold callF σ P.factors 1 h.sub, one_mul]

theorem toFac_vars (P : Product V K) : P.toFac.vars = P.vars := rfl

theorem WF.toFac_wf {P : Product V K} (h : P.WF) : P.toFac.WF where
  nodup := h.nodup
  one h := by cases h
  const c h := by cases h

theorem WF.inside_iff {P : Product V K} (h : P.WF) (σ : V → K) :
    P.toFac.Inside σ ↔ ∀ f ∈ P.factors, f.Inside σ := by
  rw [Fac.inside_all]
  constructor
  · intro h1 f hf
    rw [Fac.inside_all]
    intro e he
    have hmem : e ∈ P.factors.flatMap Fac.dims := List.mem_flatMap.2 ⟨f, hf, he⟩
    obtain ⟨d, hd, hde⟩ := List.mem_map.1 ((h.mem e.var).2 ⟨e, hmem, rfl⟩)
    have := (h.box d hd _).1 (h1 d hd) e hmem hde.symm
    rwa [hde] at this
  · intro h1 d hd
    refine (h.box d hd _).2 fun e he hed => ?_
    obtain ⟨f, hf, hef⟩ := List.mem_flatMap.1 he
    have := Fac.inside_all.1 (h1 f hf) e hef
    rwa [hed] at this

theorem WF.dens_eq {P : Product V K} (h : P.WF) (σ : V → K) : P.dens σ = joint P.factors σ := by
  show P.toFac.dens σ = _
  by_cases hi : P.toFac.Inside σ
  · rw [Fac.dens_in hi]
    show (P.pdf Fac.call (P.vars.map σ)).toOption.getD 0 = _
    rw [pdf_ok h]
    rfl
  · rw [Fac.dens_out hi]
    rw [h.inside_iff] at hi
    push Not at hi
    obtain ⟨f, hf, hn⟩ := hi
    exact (joint_zero hf (Fac.dens_out hn)).symm

end Product
end Pacal.NDim
