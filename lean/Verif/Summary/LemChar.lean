import Verif.Summary.SpecChar
import Verif.Quantile.Inverse
import Verif.Quantile.Example
import Verif.Segments.Eval
import Verif.Calc.Props
import Mathlib.Analysis.Calculus.LocalExtr.Basic
import Mathlib.Analysis.Calculus.Deriv.MeanValue

/-! Lemmas for C88. -/

namespace Pacal.Summary
open Quantile Set

theorem plain_lo {s : Seg ℝ} {a b : ℝ} (h : Plain s a b) : s.lo = .fin a ∧ s.hi = .fin b := by
  rcases h with ⟨f, rfl⟩ | ⟨c, rfl⟩ <;> exact ⟨rfl, rfl⟩

theorem plain_val {s : Seg ℝ} {a b : ℝ} (h : Plain s a b) : s.valLo = s.fn a ∧ s.valHi = s.fn b := by
  rcases h with ⟨f, rfl⟩ | ⟨c, rfl⟩ <;> exact ⟨rfl, rfl⟩

theorem plain_dirac {s : Seg ℝ} {a b : ℝ} (h : Plain s a b) : s.isDirac = false := by
  rcases h with ⟨f, rfl⟩ | ⟨c, rfl⟩ <;> rfl

theorem plain_wf {s : Seg ℝ} {a b : ℝ} (h : Plain s a b) (hw : s.WF) : a < b := by
  rcases h with ⟨f, rfl⟩ | ⟨c, rfl⟩ <;> exact hw

theorem ext_lt {a b : ℝ} : (Ext.fin a : Ext ℝ) < Ext.fin b ↔ a < b := by
  simp [Ext.fin]

theorem ext_le {a b : ℝ} : (Ext.fin a : Ext ℝ) ≤ Ext.fin b ↔ a ≤ b := by
  simp [Ext.fin]

theorem linked_pair : ∀ {l : PF ℝ} {e f : Ext ℝ}, Linked e f l → (∀ s ∈ l, s.lo < s.hi) → (e :: l.map Seg.hi).Pairwise (· < ·)
  | [], _, _, _, _ => by simp
  | s :: l, e, f, h, hs => by
    have ih := linked_pair h.2 fun t ht => hs t (by simp [ht])
    have h1 : e < s.hi := by rw [← h.1]; exact hs s (by simp)
    refine List.pairwise_cons.2 ⟨?_, ih⟩
    intro x hx
    rw [List.map_cons] at hx
    rcases List.mem_cons.1 hx with rfl | hx
    · exact h1
    · exact h1.trans ((List.pairwise_cons.1 ih).1 x hx)

theorem linked_los : ∀ {l : PF ℝ} {e f : Ext ℝ}, Linked e f l → (e :: l.map Seg.hi).dropLast = l.map Seg.lo
  | [], _, _, _ => rfl
  | s :: l, e, f, h => by
    have ih := linked_los h.2
    rw [List.map_cons, List.dropLast_cons_of_ne_nil (by simp), ih, List.map_cons, h.1]

theorem linked_mem : ∀ {l : PF ℝ} {e f : Ext ℝ}, Linked e f l → ∀ s ∈ l, s.lo ∈ e :: l.map Seg.hi := by
  intro l e f h s hs
  have := linked_los h
  exact List.dropLast_subset _ (by rw [this]; exact List.mem_map.2 ⟨s, hs, rfl⟩)

theorem breaks_linked {l : PF ℝ} {e f : Ext ℝ} (hne : l ≠ []) (h : Linked e f l) (hs : ∀ s ∈ l, s.lo < s.hi) :
    PF.getBreaks l = e :: l.map Seg.hi := by
  refine getBreaks_eq (linked_pair h hs) fun x => ?_
  rw [mem_getBreaks]
  constructor
  · rintro ⟨s, h1, rfl | rfl⟩
    · exact linked_mem h s h1
    · exact List.mem_cons_of_mem _ (List.mem_map.2 ⟨s, h1, rfl⟩)
  · intro hx
    rcases List.mem_cons.1 hx with rfl | hx
    · obtain ⟨s, c', rfl⟩ := List.exists_cons_of_ne_nil hne
      exact ⟨s, by simp, Or.inl h.1.symm⟩
    · obtain ⟨s, h1, rfl⟩ := List.mem_map.1 hx
      exact ⟨s, h1, Or.inr rfl⟩

variable {I : Type}

theorem roots_ok {O : CharOps I} : ∀ {l : PF ℝ}, (∀ s ∈ l, ∃ a b, Plain s a b ∧ FindsCritical O s.fn a b) →
    ∃ ds R, pfDiff O l = .ok ds ∧ pfRoots O ds = .ok R ∧ (∀ x ∈ R, ∃ s ∈ l, ∃ a b, Plain s a b ∧ x ∈ Ioo a b) ∧
      ∀ s ∈ l, ∀ a b, Plain s a b → (∀ x ∈ Ioo a b, deriv s.fn x = 0) ∨ ∀ x ∈ Ioo a b, deriv s.fn x = 0 → x ∈ R
  | [], _ => ⟨[], [], rfl, rfl, by simp, by simp⟩
  | s :: l, h => by
    obtain ⟨ds, R, h1, h2, h3, h4⟩ := roots_ok (l := l) fun t ht => h t (by simp [ht])
    obtain ⟨a, b, hp, hc⟩ := h s (by simp)
    obtain ⟨d, r, k1, k2, k3, k4⟩ := hc.found
    refine ⟨d :: ds, r ++ R, ?_, ?_, ?_, ?_⟩
    · rcases hp with ⟨f, rfl⟩ | ⟨c, rfl⟩
      · have k1' : O.interpDiff f a b = .ok d := k1
        simp only [pfDiff, k1', h1, Bind.bind, Except.bind]
      · have k1' : O.interpDiff (fun _ => c) a b = .ok d := k1
        simp only [pfDiff, k1', h1, Bind.bind, Except.bind]
    · simp only [pfRoots, k2, h2, Bind.bind, Except.bind]
    · intro x hx
      rcases List.mem_append.1 hx with hx | hx
      · exact ⟨s, by simp, a, b, hp, k3 x hx⟩
      · obtain ⟨t, ht, q⟩ := h3 x hx
        exact ⟨t, by simp [ht], q⟩
    · intro t ht a' b' hp'
      rcases List.mem_cons.1 ht with rfl | ht
      · have e1 : a' = a := by simpa [Ext.fin] using (plain_lo hp').1.symm.trans (plain_lo hp).1
        have e2 : b' = b := by simpa [Ext.fin] using (plain_lo hp').2.symm.trans (plain_lo hp).2
        subst e1 e2
        rcases k4 with k4 | k4
        · exact Or.inl k4
        · exact Or.inr fun x hx h0 => List.mem_append_left _ (k4 x hx h0)
      · rcases h4 t ht a' b' hp' with q | q
        · exact Or.inl q
        · exact Or.inr fun x hx h0 => List.mem_append_right _ (q x hx h0)

theorem eval_inside {eps : ℝ} {l : PF ℝ} (hw : PF.WF eps l) (hd : ∀ s ∈ l, s.isDirac = false) {s : Seg ℝ} (hs : s ∈ l)
    {a b x : ℝ} (hp : Plain s a b) (hx : x ∈ Ioo a b) : l.evalVec x = s.fn x := by
  have hsegs : PF.segs l = l := List.filter_eq_self.2 fun s hs => by simp [hd s hs]
  have h1 : s.lo ≤ .fin x := by rw [(plain_lo hp).1]; exact ext_le.2 hx.1.le
  have h2 : .fin x < s.hi := by rw [(plain_lo hp).2]; exact ext_lt.2 hx.2
  unfold PF.evalVec
  simp only [hsegs]
  obtain ⟨l₁, l₂, rfl⟩ := List.append_of_mem hs
  rw [evalVecLoop_val hw hd, val_split hw (hd s hs) h1 h2]
  cases hl : (l₁ ++ s :: l₂).getLast? with
  | none => rfl
  | some t =>
    simp only
    rw [if_neg]
    intro he
    have ht : t = s ∨ t ∈ l₂ := by
      rw [List.getLast?_append_of_ne_nil _ (by simp)] at hl
      exact List.mem_cons.1 (List.mem_of_getLast? hl)
    rcases ht with rfl | ht
    · exact absurd he (ne_of_lt h2)
    · have h3 := ((List.pairwise_cons.1 (wf_append hw).2.1.sorted).1 t ht).1
      have h4 : t.lo ≤ t.hi := Seg.lo_le_hi (hw.seg t (by simp [ht]))
      exact absurd (h2.trans_le (h3.trans h4)) (by rw [he]; exact lt_irrefl _)

theorem bestFrom_spec {lt : ℝ → ℝ → Prop} (tr : ∀ u v w, ¬ lt v u → lt v w → ¬ lt w u) (ir : ∀ u, ¬ lt u u) (L : List ℝ) :
    ∀ (pre rest : List ℝ) (p : ℕ × ℝ), L = pre ++ rest → L[p.1]? = some p.2 → (∀ y ∈ pre, ¬ lt p.2 y) →
      L[(bestFrom lt pre.length rest p).1]? = some (bestFrom lt pre.length rest p).2 ∧
        ∀ y ∈ L, ¬ lt (bestFrom lt pre.length rest p).2 y
  | pre, [], p, h1, h2, h3 => by
    rw [List.append_nil] at h1
    subst h1
    exact ⟨h2, h3⟩
  | pre, y :: ys, p, h1, h2, h3 => by
    have e : bestFrom lt pre.length (y :: ys) p
        = bestFrom lt (pre ++ [y]).length ys (open Classical in if lt p.2 y then (pre.length, y) else p) := by
      simp [bestFrom]
    rw [e]
    refine bestFrom_spec tr ir L (pre ++ [y]) ys _ (by simp [h1]) ?_ ?_
    · split_ifs with h
      · rw [h1]; simp
      · exact h2
    · intro z hz
      rcases List.mem_append.1 hz with hz | hz
      · split_ifs with h
        · exact tr _ _ _ (h3 z hz) h
        · exact h3 z hz
      · obtain rfl : z = y := by simpa using hz
        split_ifs with h
        · exact ir _
        · exact h

theorem best_spec {lt : ℝ → ℝ → Prop} (tr : ∀ u v w, ¬ lt v u → lt v w → ¬ lt w u) (ir : ∀ u, ¬ lt u u) {L : List ℝ}
    (hL : L ≠ []) : ∃ p, best lt L = .ok p ∧ L[p.1]? = some p.2 ∧ ∀ y ∈ L, ¬ lt p.2 y := by
  obtain ⟨y, ys, rfl⟩ := List.exists_cons_of_ne_nil hL
  refine ⟨_, rfl, ?_⟩
  exact bestFrom_spec tr ir (y :: ys) [y] ys (0, y) rfl rfl (by simpa using ir y)

/-- the extreme value on a piece is a value at an end or at a critical point -/
theorem piece_max {f : ℝ → ℝ} {a b : ℝ} (hab : a < b) (hc : ContinuousOn f (Icc a b)) (hd : DifferentiableOn ℝ f (Ioo a b))
    {P : ℝ → Prop} (h : (∀ x ∈ Ioo a b, deriv f x = 0) ∨ ∀ x ∈ Ioo a b, deriv f x = 0 → P x) {t : ℝ} (ht : t ∈ Icc a b) :
    f t ≤ f a ∨ f t ≤ f b ∨ ∃ x ∈ Ioo a b, P x ∧ f t ≤ f x := by
  obtain ⟨x, hx, hm⟩ := isCompact_Icc.exists_isMaxOn ⟨a, left_mem_Icc.2 hab.le⟩ hc
  have htx : f t ≤ f x := hm ht
  rcases eq_or_lt_of_le hx.1 with rfl | h1
  · exact Or.inl htx
  rcases eq_or_lt_of_le hx.2 with rfl | h2
  · exact Or.inr (Or.inl htx)
  rcases h with h | h
  · left
    rcases eq_or_lt_of_le ht.1 with rfl | hat
    · exact le_rfl
    obtain ⟨c, hc', he⟩ := exists_deriv_eq_slope f hat (hc.mono (Icc_subset_Icc_right ht.2)) (hd.mono (Ioo_subset_Ioo_right ht.2))
    rw [h c ⟨hc'.1, hc'.2.trans_le ht.2⟩, eq_comm, div_eq_zero_iff] at he
    rcases he with he | he <;> linarith
  · refine Or.inr (Or.inr ⟨x, ⟨h1, h2⟩, h x ⟨h1, h2⟩ ?_, htx⟩)
    exact (hm.isLocalMax (Icc_mem_nhds h1 h2)).deriv_eq_zero

theorem piece_min {f : ℝ → ℝ} {a b : ℝ} (hab : a < b) (hc : ContinuousOn f (Icc a b)) (hd : DifferentiableOn ℝ f (Ioo a b))
    {P : ℝ → Prop} (h : (∀ x ∈ Ioo a b, deriv f x = 0) ∨ ∀ x ∈ Ioo a b, deriv f x = 0 → P x) {t : ℝ} (ht : t ∈ Icc a b) :
    f a ≤ f t ∨ f b ≤ f t ∨ ∃ x ∈ Ioo a b, P x ∧ f x ≤ f t := by
  have e : ∀ x, deriv (fun x => -f x) x = -deriv f x := fun x => deriv.fun_neg
  have := piece_max (f := fun x => -f x) hab hc.neg hd.neg (P := P) (by simpa only [e, neg_eq_zero] using h) ht
  simpa only [neg_le_neg_iff] using this

/-- the arrays of `characteristicPoints` for a function made of bounded pieces that follow each other -/
theorem points_ok {O : CharOps I} {eps : ℝ} {l : PF ℝ} (hw : PF.WF eps l) (hne : l ≠ [])
    (hch : List.IsChain (fun s t => s.hi = t.lo) l) (h : ∀ s ∈ l, ∃ a b, Plain s a b ∧ FindsCritical O s.fn a b) :
    ∃ mi xi, characteristicPoints O l = .ok (mi, xi) ∧ mi ≠ [] ∧
      List.Forall₂ (fun v e => ∃ x : ℝ, e = .fin x ∧ v ∈ valuesAt l x) mi xi ∧
      ∀ v ∈ values l, (∃ y ∈ mi, v ≤ y) ∧ ∃ y ∈ mi, y ≤ v := by
  have hd : ∀ s ∈ l, s.isDirac = false := fun s hs => by
    obtain ⟨a, b, hp, -⟩ := h s hs; exact plain_dirac hp
  have hlt : ∀ s ∈ l, s.lo < s.hi := fun s hs => by
    obtain ⟨a, b, hp, -⟩ := h s hs
    rw [(plain_lo hp).1, (plain_lo hp).2]; exact ext_lt.2 (plain_wf hp (hw.seg s hs))
  obtain ⟨s0, t0, -, -, hlk⟩ := linked_of_chain hch hne
  have hb := breaks_linked hne hlk hlt
  obtain ⟨ds, R, h1, h2, h3, h4⟩ := roots_ok h
  refine ⟨R.map l.evalVec ++ l.map Seg.valLo ++ l.map Seg.valHi, R.map Ext.fin ++ l.map Seg.lo ++ l.map Seg.hi, ?_, ?_, ?_, ?_⟩
  · unfold characteristicPoints
    simp only [h1, h2, hb, Bind.bind, Except.bind, linked_los hlk, List.tail_cons]
  · simp [hne]
  · refine List.rel_append (List.rel_append ?_ ?_) ?_
    · rw [List.forall₂_map_left_iff, List.forall₂_map_right_iff, List.forall₂_same]
      intro x hx
      obtain ⟨s, hs, a, b, hp, hx'⟩ := h3 x hx
      refine ⟨x, rfl, s, hs, ?_, ?_, (eval_inside hw hd hs hp hx').symm⟩
      · rw [(plain_lo hp).1]; exact ext_le.2 hx'.1.le
      · rw [(plain_lo hp).2]; exact ext_le.2 hx'.2.le
    · rw [List.forall₂_map_left_iff, List.forall₂_map_right_iff, List.forall₂_same]
      intro s hs
      obtain ⟨a, b, hp, -⟩ := h s hs
      exact ⟨a, (plain_lo hp).1, s, hs, (plain_lo hp).1.le, (plain_lo hp).1 ▸ (hlt s hs).le, (plain_val hp).1.symm⟩
    · rw [List.forall₂_map_left_iff, List.forall₂_map_right_iff, List.forall₂_same]
      intro s hs
      obtain ⟨a, b, hp, -⟩ := h s hs
      exact ⟨b, (plain_lo hp).2, s, hs, (plain_lo hp).2 ▸ (hlt s hs).le, (plain_lo hp).2.ge, (plain_val hp).2.symm⟩
  · intro v hv
    obtain ⟨x, s, hs, k1, k2, rfl⟩ := mem_iUnion.1 hv
    obtain ⟨a, b, hp, hc⟩ := h s hs
    have hab := plain_wf hp (hw.seg s hs)
    rw [(plain_lo hp).1] at k1
    rw [(plain_lo hp).2] at k2
    have hx : x ∈ Icc a b := ⟨ext_le.1 k1, ext_le.1 k2⟩
    have ma : s.fn a ∈ R.map l.evalVec ++ l.map Seg.valLo ++ l.map Seg.valHi :=
      List.mem_append_left _ (List.mem_append_right _ (List.mem_map.2 ⟨s, hs, (plain_val hp).1⟩))
    have mb : s.fn b ∈ R.map l.evalVec ++ l.map Seg.valLo ++ l.map Seg.valHi :=
      List.mem_append_right _ (List.mem_map.2 ⟨s, hs, (plain_val hp).2⟩)
    have mx : ∀ y ∈ Ioo a b, y ∈ R → s.fn y ∈ R.map l.evalVec ++ l.map Seg.valLo ++ l.map Seg.valHi := fun y hy hR =>
      List.mem_append_left _ (List.mem_append_left _ (List.mem_map.2 ⟨y, hR, eval_inside hw hd hs hp hy⟩))
    constructor
    · rcases piece_max hab hc.cont hc.diff (h4 s hs a b hp) hx with q | q | ⟨y, hy, hR, q⟩
      · exact ⟨_, ma, q⟩
      · exact ⟨_, mb, q⟩
      · exact ⟨_, mx y hy hR, q⟩
    · rcases piece_min hab hc.cont hc.diff (h4 s hs a b hp) hx with q | q | ⟨y, hy, hR, q⟩
      · exact ⟨_, ma, q⟩
      · exact ⟨_, mb, q⟩
      · exact ⟨_, mx y hy hR, q⟩

theorem forall2_get {α β : Type*} {P : α → β → Prop} : ∀ {l : List α} {m : List β}, List.Forall₂ P l m → ∀ {i : ℕ} {v : α},
    l[i]? = some v → ∃ e, m[i]? = some e ∧ P v e
  | _, _, .nil, i, v, h => by simp at h
  | _, _, .cons h t, 0, v, hv => by
    obtain rfl : _ = v := by simpa using hv
    exact ⟨_, rfl, h⟩
  | _, _, .cons h t, i + 1, v, hv => by
    obtain ⟨e, h1, h2⟩ := forall2_get t (i := i) (by simpa using hv)
    exact ⟨e, by simpa using h1, h2⟩

theorem extremum_ok {lt : ℝ → ℝ → Prop} (tr : ∀ u v w, ¬ lt v u → lt v w → ¬ lt w u) (ir : ∀ u, ¬ lt u u) {O : CharOps I}
    {l : PF ℝ} {mi : List ℝ} {xi : List (Ext ℝ)} (h : characteristicPoints O l = .ok (mi, xi)) (hne : mi ≠ [])
    (hf : List.Forall₂ (fun v e => ∃ x : ℝ, e = .fin x ∧ v ∈ valuesAt l x) mi xi) :
    ∃ m x, extremum lt O l = .ok (m, .fin x) ∧ m ∈ valuesAt l x ∧ ∀ y ∈ mi, ¬ lt m y := by
  obtain ⟨p, h1, h2, h3⟩ := best_spec tr ir hne
  obtain ⟨e, h4, x, rfl, h5⟩ := forall2_get hf h2
  refine ⟨p.2, x, ?_, h5, h3⟩
  unfold extremum
  simp only [h, h1, Bind.bind, Except.bind, h4]

open Calc Polynomial Nodes in
/-- the derivative of an interpolator that has nodes to spare is an interpolator that has a node to spare, and the root finder
refuses it -/
theorem diff_roots_fail {eig : (m : ℕ) → Matrix (Fin m) (Fin m) ℝ → List ℂ} (he : Eigs eig) {tol : ℝ} (htol : 0 < tol) {n : ℕ}
    (hn : 3 ≤ n) {a b : ℝ} (hab : a < b) (p : ℝ[X]) (hd : p.degree < ((n - 1 : ℕ) : WithBot ℕ)) (ws : List ℝ) :
    ∃ D, diff2 (sampled n a b p ws) = .ok D ∧ ∃ e, roots2 eig tol D = .error e := by
  obtain ⟨N, rfl⟩ : ∃ N, n = N + 1 := ⟨n - 1, by omega⟩
  rw [Nat.add_sub_cancel] at hd
  have hd' : p.degree < ((N + 1 : ℕ) : WithBot ℕ) := hd.trans (by exact_mod_cast Nat.lt_succ_self N)
  have hl : lastCoef p (N + 1) a b = 0 := by
    unfold lastCoef
    rw [Nat.add_sub_cancel, coeff_eq_zero_of_degree_lt hd, zero_div]
  obtain ⟨D, h1, ⟨h2, h3⟩, h4⟩ := diff2_formula (N := N) (by omega) hab p hd' ws
  have hg := C39_cheb_grid (n := N) (by omega) hab
  have hlen : (cheb N a b).length = N := hg.length
  have hw : D.ws.length = D.xs.length := by
    have hon : ∃ x y d, D = onCheb x y d := by
      unfold diff2 at h1
      simp only [Bind.bind] at h1
      cases hc : chebt2 (sampled (N + 1) a b p ws).ys with
      | error e => rw [hc] at h1; simp [Except.bind] at h1
      | ok c =>
        rw [hc] at h1
        simp only [Except.bind] at h1
        split at h1
        · split at h1
          · simp at h1
          · exact ⟨_, _, _, (Except.ok.inj h1).symm⟩
        · simp at h1
    obtain ⟨x, y, d, rfl⟩ := hon
    rw [h2, hlen]
    have : d.length = N := h3
    simp [onCheb, chebWeights, alt, this]
  have hys : D.ys = (cheb N a b).map fun x => (derivative p).eval x := by
    refine List.ext_getElem (by rw [h3, List.length_map, hlen]) fun i hi hi' => ?_
    have hx : D.xs.Nodup := by rw [h2]; exact hg.sorted.imp ne_of_lt
    have hix : i < D.xs.length := by rw [h2, hlen]; omega
    have k1 := C41_at_node D.xs D.ys D.ws hx (by rw [h2, hlen, h3]) hw i hix
    have k2 := h4 D.xs[i]
    rw [hl, zero_mul, add_zero] at k2
    rw [Bary.at, k1] at k2
    rw [List.getElem_map]
    have k3 := Except.ok.inj k2
    rw [k3]
    simp only [h2]
  have hD : D = sampled N a b (derivative p) D.ws := by
    cases D; simp only at h2 hys; subst h2 hys; rfl
  refine ⟨D, h1, ?_⟩
  have hdd : (derivative p).degree < (N : WithBot ℕ) := (degree_derivative_le).trans_lt hd
  obtain ⟨-, k2, k3⟩ := C65_roots_partial he (n := N) hab htol (derivative p) hdd D.ws
  rw [hD]
  rcases (show 3 ≤ N ∨ N = 2 by omega) with h | h
  · refine ⟨_, k2 h ?_⟩
    rw [coeff_derivative, show N - 1 + 1 = N by omega, coeff_eq_zero_of_degree_lt hd, zero_mul]
  · exact ⟨_, k3 h⟩

theorem points_fail {O : CharOps I} {l : PF ℝ} {s : Seg ℝ} (hs : s ∈ l) {a b : ℝ} (hp : Plain s a b) {d : I}
    (h1 : O.interpDiff s.fn a b = .ok d) (h2 : ∃ e, O.roots d = .error e) : ∃ e, characteristicPoints O l = .error e := by
  have key : ∀ {l : PF ℝ}, s ∈ l → ∀ ds, pfDiff O l = .ok ds → d ∈ ds := by
    intro l
    induction l with
    | nil => intro h; simp at h
    | cons t l ih =>
      intro h ds hds
      rcases List.mem_cons.1 h with rfl | h'
      · rcases hp with ⟨f, rfl⟩ | ⟨c, rfl⟩
        · have h1' : O.interpDiff f a b = .ok d := h1
          simp only [pfDiff, h1', Bind.bind, Except.bind] at hds
          cases hq : pfDiff O l with
          | error e => rw [hq] at hds; simp at hds
          | ok q => rw [hq] at hds; simp only [Except.ok.injEq] at hds; rw [← hds]; simp
        · have h1' : O.interpDiff (fun _ => c) a b = .ok d := h1
          simp only [pfDiff, h1', Bind.bind, Except.bind] at hds
          cases hq : pfDiff O l with
          | error e => rw [hq] at hds; simp at hds
          | ok q => rw [hq] at hds; simp only [Except.ok.injEq] at hds; rw [← hds]; simp
      · have fin : ∀ f x y, (O.interpDiff f x y).bind (fun d => (pfDiff O l).bind fun ds => .ok (d :: ds)) = .ok ds → d ∈ ds := by
          intro f x y hh
          cases hq : O.interpDiff f x y with
          | error e => rw [hq] at hh; simp [Except.bind] at hh
          | ok d' =>
            rw [hq] at hh
            cases hq' : pfDiff O l with
            | error e => rw [hq'] at hh; simp [Except.bind] at hh
            | ok q =>
              rw [hq'] at hh
              simp only [Except.bind, Except.ok.injEq] at hh
              rw [← hh]
              exact List.mem_cons_of_mem _ (ih h' q hq')
        cases t with
        | fin pole x y f => exact fin f x y hds
        | const x y c => exact fin _ x y hds
        | minf y f => exact ih h' ds hds
        | pinf x f => exact ih h' ds hds
        | dirac x m => exact ih h' ds hds
  have key2 : ∀ ds : List I, d ∈ ds → ∃ e, pfRoots O ds = .error e := by
    intro ds
    induction ds with
    | nil => intro h; simp at h
    | cons t ds ih =>
      intro h
      simp only [pfRoots, Bind.bind]
      rcases List.mem_cons.1 h with rfl | h
      · obtain ⟨e, he⟩ := h2
        exact ⟨e, by rw [he]; rfl⟩
      · obtain ⟨e, he⟩ := ih h
        cases hq : O.roots t with
        | error e' => exact ⟨e', rfl⟩
        | ok r => exact ⟨e, by rw [he]; rfl⟩
  unfold characteristicPoints
  simp only [Bind.bind]
  cases hq : pfDiff O l with
  | error e => exact ⟨e, rfl⟩
  | ok ds =>
    obtain ⟨e, he⟩ := key2 ds (key hs ds hq)
    refine ⟨e, ?_⟩
    simp only [Except.bind]
    rw [he]

end Pacal.Summary
