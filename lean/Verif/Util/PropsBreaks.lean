import Verif.Util.Breaks
import Mathlib.Tactic.Linarith
import Mathlib.Tactic.NormNum
import Mathlib.Tactic.FieldSimp
import Mathlib.Data.Rat.Cast.Order
import Mathlib.Data.List.Dedup

/-!
# Property C17: merging nearby break points

`Close eps x y`: two finite points at distance at most `eps`.
-/

set_option linter.unusedSectionVars false

namespace Pacal
open Breaks
variable {K : Type*} [Field K] [LinearOrder K] [IsStrictOrderedRing K]

/-- `x` and `y` are finite and at most `eps` apart -/
def Close (eps : K) (x y : Ext K) : Prop := ∃ a b : K, x = Ext.fin a ∧ y = Ext.fin b ∧ |a - b| ≤ eps

/-- every flag of `a` is a flag of `b` -/
def FlagsLe (a b : Brk K) : Prop :=
  (a.f1 → b.f1) ∧ (a.f2 → b.f2) ∧ (a.f3 → b.f3) ∧ (a.f4 → b.f4)

namespace Breaks

theorem near_iff {eps : K} {x y : Ext K} : near eps x y = true ↔ Close eps x y := by
  unfold near
  split
  · next x y =>
    constructor
    · intro h; exact ⟨x, y, rfl, rfl, by simpa using h⟩
    · rintro ⟨a, b, ha, hb, h⟩
      cases ha; cases hb; simpa using h
  · next x y h =>
    constructor
    · intro h; cases h
    · rintro ⟨a, b, ha, hb, _⟩
      exact (h a b ha hb).elim

theorem close_symm {eps : K} {x y : Ext K} (h : Close eps x y) : Close eps y x := by
  obtain ⟨a, b, ha, hb, h⟩ := h
  exact ⟨b, a, hb, ha, by rwa [abs_sub_comm]⟩

theorem fin_le {a b : K} : (Ext.fin a ≤ Ext.fin b) ↔ a ≤ b := by
  unfold Ext.fin; rw [WithBot.coe_le_coe, WithTop.coe_le_coe]

theorem fin_inj {a b : K} : (Ext.fin a = Ext.fin b) ↔ a = b := by
  unfold Ext.fin; rw [WithBot.coe_inj, WithTop.coe_inj]

/-- closeness passes to points in between -/
theorem close_between {eps : K} {x y z : Ext K} (hxy : x ≤ y) (hyz : y ≤ z) (h : Close eps x z) :
    Close eps x y := by
  obtain ⟨a, b, rfl, rfl, h⟩ := h
  have : ∃ c : K, y = Ext.fin c := by
    induction y using WithBot.recBotCoe with
    | bot => exact absurd hxy (by simp [Ext.fin])
    | coe y =>
      induction y using WithTop.recTopCoe with
      | top =>
        exfalso
        unfold Ext.fin at hyz
        rw [WithBot.coe_le_coe] at hyz
        exact absurd hyz (by simp)
      | coe c => exact ⟨c, rfl⟩
  obtain ⟨c, rfl⟩ := this
  rw [fin_le] at hxy hyz
  refine ⟨a, c, rfl, rfl, ?_⟩
  rw [abs_sub_comm, abs_of_nonneg (by linarith)]
  rw [abs_sub_comm, abs_of_nonneg (by linarith)] at h
  linarith

/-- what the loop guarantees, for a sorted rest above `cur` -/
theorem mergeFrom_spec (eps : K) : ∀ (rest : List (Brk K)) (cur : Brk K),
    (∀ b ∈ rest, cur.x ≤ b.x) → rest.Pairwise (fun a b => a.x ≤ b.x) →
    (mergeFrom eps cur rest).Pairwise (fun a b => a.x ≤ b.x ∧ ¬ Close eps a.x b.x) ∧
    (∀ o ∈ mergeFrom eps cur rest, cur.x ≤ o.x) ∧
    (∃ o ∈ mergeFrom eps cur rest, o.x = cur.x ∧ FlagsLe cur o) ∧
    (∀ b ∈ rest, ∃ o ∈ mergeFrom eps cur rest, o.x ≤ b.x ∧ (o.x = b.x ∨ Close eps o.x b.x) ∧ FlagsLe b o) ∧
    (∀ o ∈ mergeFrom eps cur rest,
      (o.x = cur.x ∨ ∃ b ∈ rest, b.x = o.x) ∧
      ∀ (g : Brk K → Bool), (g = Brk.f1 ∨ g = Brk.f2 ∨ g = Brk.f3 ∨ g = Brk.f4) → g o = true →
        (o.x = cur.x ∧ g cur = true) ∨ ∃ b ∈ rest, (b.x = o.x ∨ Close eps o.x b.x) ∧ g b = true) := by
  intro rest
  induction rest with
  | nil =>
    intro cur _ _
    refine ⟨by simp [mergeFrom], by simp [mergeFrom], ⟨cur, by simp [mergeFrom], rfl, id, id, id, id⟩, by simp, ?_⟩
    intro o ho
    simp only [mergeFrom, List.mem_singleton] at ho
    subst ho
    exact ⟨.inl rfl, fun g _ hg => .inl ⟨rfl, hg⟩⟩
  | cons b rest ih =>
    intro cur hle hs
    rw [List.pairwise_cons] at hs
    have hcb := hle b (by simp)
    unfold mergeFrom
    by_cases hn : near eps b.x cur.x = true
    · rw [if_pos hn]
      have hclose : Close eps cur.x b.x := close_symm (near_iff.1 hn)
      obtain ⟨h1, h2, ⟨o0, ho0, e0, hf0⟩, h4, h5⟩ := ih (cur.or b) (fun c hc => hle c (by simp [hc])) hs.2
      have e0' : o0.x = cur.x := e0
      refine ⟨h1, h2, ⟨o0, ho0, e0, ?_⟩, ?_, ?_⟩
      · obtain ⟨p1, p2, p3, p4⟩ := hf0
        simp only [Brk.or, Bool.or_eq_true] at p1 p2 p3 p4
        exact ⟨fun h => p1 (.inl h), fun h => p2 (.inl h), fun h => p3 (.inl h), fun h => p4 (.inl h)⟩
      · intro c hc
        rcases List.mem_cons.1 hc with rfl | hc
        · refine ⟨o0, ho0, by rw [e0']; exact hcb, .inr (by rw [e0']; exact hclose), ?_⟩
          obtain ⟨p1, p2, p3, p4⟩ := hf0
          simp only [Brk.or, Bool.or_eq_true] at p1 p2 p3 p4
          exact ⟨fun h => p1 (.inr h), fun h => p2 (.inr h), fun h => p3 (.inr h), fun h => p4 (.inr h)⟩
        · exact h4 c hc
      · intro o ho
        obtain ⟨q1, q2⟩ := h5 o ho
        refine ⟨?_, ?_⟩
        · rcases q1 with q1 | ⟨c, hc, e⟩
          · exact .inl q1
          · exact .inr ⟨c, by simp [hc], e⟩
        · intro g hg hgo
          rcases q2 g hg hgo with ⟨e, hgc⟩ | ⟨c, hc, hcl, hgc⟩
          · have e' : o.x = cur.x := e
            have : g cur = true ∨ g b = true := by
              rcases hg with rfl | rfl | rfl | rfl <;> simpa [Brk.or] using hgc
            rcases this with h | h
            · exact .inl ⟨e', h⟩
            · exact .inr ⟨b, by simp, .inr (by rw [e']; exact hclose), h⟩
          · exact .inr ⟨c, by simp [hc], hcl, hgc⟩
    · rw [if_neg hn]
      have hncl : ¬ Close eps cur.x b.x := fun h => hn (near_iff.2 (close_symm h))
      obtain ⟨h1, h2, ⟨o0, ho0, e0, hf0⟩, h4, h5⟩ := ih b hs.1 hs.2
      refine ⟨?_, ?_, ⟨cur, by simp, rfl, id, id, id, id⟩, ?_, ?_⟩
      · rw [List.pairwise_cons]
        refine ⟨fun o ho => ⟨hcb.trans (h2 o ho), fun hc => hncl (close_between hcb (h2 o ho) hc)⟩, h1⟩
      · intro o ho
        rcases List.mem_cons.1 ho with rfl | ho
        · exact le_rfl
        · exact hcb.trans (h2 o ho)
      · intro c hc
        rcases List.mem_cons.1 hc with rfl | hc
        · exact ⟨o0, by simp [ho0], e0.le, .inl e0, hf0⟩
        · obtain ⟨o, ho, r⟩ := h4 c hc
          exact ⟨o, by simp [ho], r⟩
      · intro o ho
        rcases List.mem_cons.1 ho with rfl | ho
        · exact ⟨.inl rfl, fun g _ hg => .inl ⟨rfl, hg⟩⟩
        · obtain ⟨q1, q2⟩ := h5 o ho
          refine ⟨.inr ?_, ?_⟩
          · rcases q1 with q1 | ⟨c, hc, e⟩
            · exact ⟨b, by simp, q1.symm⟩
            · exact ⟨c, by simp [hc], e⟩
          · intro g hg hgo
            rcases q2 g hg hgo with ⟨e, hgc⟩ | ⟨c, hc, hcl, hgc⟩
            · exact .inr ⟨b, by simp, .inl e.symm, hgc⟩
            · exact .inr ⟨c, by simp [hc], hcl, hgc⟩

theorem key_le_x {a b : Brk K} (h : a.key ≤ b.key) : a.x ≤ b.x := by
  unfold Brk.key at h
  rw [Prod.Lex.toLex_le_toLex] at h
  rcases h with h | h
  · exact h.le
  · exact h.1.le

end Breaks

/-- **C17, break points of sums.** For every list of break points and every tolerance: the result is sorted
and no two of its points are within tolerance; every point of the input is represented by a point of the
result that is not above it, equal to it or within tolerance, and that carries all its flags; the result
invents neither points nor flags. -/
theorem C17_unique_breakpoints (eps : K) (l : List (Brk K)) :
    (uniqueBreakpoints eps l).Pairwise (fun a b => a.x ≤ b.x ∧ ¬ Close eps a.x b.x) ∧
    (∀ b ∈ l, ∃ o ∈ uniqueBreakpoints eps l, o.x ≤ b.x ∧ (o.x = b.x ∨ Close eps o.x b.x) ∧ FlagsLe b o) ∧
    (∀ o ∈ uniqueBreakpoints eps l, (∃ b ∈ l, b.x = o.x) ∧
      ∀ (g : Brk K → Bool), (g = Brk.f1 ∨ g = Brk.f2 ∨ g = Brk.f3 ∨ g = Brk.f4) → g o = true →
        ∃ b ∈ l, (b.x = o.x ∨ Close eps o.x b.x) ∧ g b = true) := by
  have hperm := List.perm_insertionSort (fun a b : Brk K => a.key ≤ b.key) l
  have hsort : (l.insertionSort (fun a b => a.key ≤ b.key)).Pairwise (fun a b => a.key ≤ b.key) :=
    haveI : Std.Total (fun a b : Brk K => a.key ≤ b.key) := ⟨fun a b => le_total _ _⟩
    haveI : IsTrans (Brk K) (fun a b : Brk K => a.key ≤ b.key) := ⟨fun a b c => le_trans⟩
    List.pairwise_insertionSort _ l
  unfold uniqueBreakpoints
  cases hl : l.insertionSort (fun a b => a.key ≤ b.key) with
  | nil =>
    rw [hl] at hperm
    have : l = [] := by simpa using hperm
    subst this
    simp
  | cons b rest =>
    rw [hl, List.pairwise_cons] at hsort
    rw [hl] at hperm
    obtain ⟨h1, h2, h3, h4, h5⟩ := mergeFrom_spec eps rest b (fun c hc => key_le_x (hsort.1 c hc))
      (hsort.2.imp fun h => key_le_x h)
    refine ⟨h1, ?_, ?_⟩
    · intro c hc
      rcases List.mem_cons.1 (hperm.mem_iff.2 hc) with rfl | hc
      · obtain ⟨o, ho, e, hf⟩ := h3
        exact ⟨o, ho, e.le, .inl e, hf⟩
      · exact h4 c hc
    · intro o ho
      obtain ⟨q1, q2⟩ := h5 o ho
      refine ⟨?_, ?_⟩
      · rcases q1 with e | ⟨c, hc, e⟩
        · exact ⟨b, hperm.mem_iff.1 (by simp), e.symm⟩
        · exact ⟨c, hperm.mem_iff.1 (by simp [hc]), e⟩
      · intro g hg hgo
        rcases q2 g hg hgo with ⟨e, hgb⟩ | ⟨c, hc, hcl, hgc⟩
        · exact ⟨b, hperm.mem_iff.1 (by simp), .inl e.symm, hgb⟩
        · exact ⟨c, hperm.mem_iff.1 (by simp [hc]), hcl, hgc⟩

/-- Non-vacuity: two nearby points merge with their flags, the others stay. -/
example : (uniqueBreakpoints (1 / 10 : ℚ)
      [⟨Ext.fin 1, false, true, false, false⟩, ⟨Ext.ninf, false, false, false, false⟩,
       ⟨Ext.fin (21 / 20), true, false, false, false⟩, ⟨Ext.fin 3, false, false, false, true⟩]).map
      (fun b => (b.x, b.f1, b.f2, b.f4))
    = [(Ext.ninf, false, false, false), (Ext.fin 1, true, true, false), (Ext.fin 3, false, false, true)] := by
  decide +kernel

/-! ### `epsunique` -/

namespace Breaks

/-- the relative tolerance of `epsunique`: `y` is at most `eps * max(1, |y|)` above `x` -/
def RelClose (eps : K) (x y : Ext K) : Prop :=
  ∃ a b : K, x = Ext.fin a ∧ y = Ext.fin b ∧ b - a ≤ eps * max 1 |b|

theorem keep_iff {eps : K} {p x : Ext K} : keep eps p x = true ↔ ¬ RelClose eps p x := by
  have hpos : ∀ x : K, 0 < max 1 |x| := fun x => lt_of_lt_of_le one_pos (le_max_left _ _)
  unfold keep
  split
  · next p x =>
    constructor
    · rintro h ⟨a, b, ha, hb, h'⟩
      cases ha; cases hb
      have := of_decide_eq_true h
      rw [gt_iff_lt, lt_div_iff₀ (hpos x)] at this
      linarith
    · intro h
      rw [decide_eq_true_iff, gt_iff_lt, lt_div_iff₀ (hpos x)]
      by_contra hc
      exact h ⟨p, x, rfl, rfl, not_lt.1 hc⟩
  · next h =>
    simp only [true_iff]
    rintro ⟨a, b, ha, hb, _⟩
    exact h a b ha hb

theorem relClose_left {eps : K} {x y z : Ext K} (hxy : x ≤ y) (h : RelClose eps x z) (hyz : y ≤ z) :
    RelClose eps y z := by
  obtain ⟨a, b, rfl, rfl, h⟩ := h
  have : ∃ c : K, y = Ext.fin c := by
    induction y using WithBot.recBotCoe with
    | bot => exact absurd hxy (by simp [Ext.fin])
    | coe y =>
      induction y using WithTop.recTopCoe with
      | top =>
        exfalso
        unfold Ext.fin at hyz
        rw [WithBot.coe_le_coe] at hyz
        exact absurd hyz (by simp)
      | coe c => exact ⟨c, rfl⟩
  obtain ⟨c, rfl⟩ := this
  rw [fin_le] at hxy
  exact ⟨c, b, rfl, rfl, by linarith⟩

theorem keepFrom_spec (eps : K) : ∀ (xs : List (Ext K)) (q p : Ext K), q ≤ p → (∀ x ∈ xs, p < x) →
    xs.Pairwise (· < ·) →
    (q :: keepFrom eps p xs).Pairwise (fun a b => a < b ∧ ¬ RelClose eps a b) ∧
    (∀ o ∈ keepFrom eps p xs, o ∈ xs) ∧
    (∀ x ∈ xs, x ∈ keepFrom eps p xs ∨ ∃ y, (y = p ∨ y ∈ xs) ∧ y < x ∧ RelClose eps y x) := by
  intro xs
  induction xs with
  | nil => intro q p _ _ _; simp [keepFrom]
  | cons x xs ih =>
    intro q p hqp hp hs
    rw [List.pairwise_cons] at hs
    have hpx := hp x (by simp)
    unfold keepFrom
    by_cases hk : keep eps p x = true
    · rw [if_pos hk]
      have hk' := keep_iff.1 hk
      obtain ⟨h1, h2, h3⟩ := ih x x le_rfl hs.1 hs.2
      refine ⟨?_, ?_, ?_⟩
      · rw [List.pairwise_cons]
        refine ⟨?_, h1⟩
        intro o ho
        have hqx : q < x ∧ ¬ RelClose eps q x :=
          ⟨lt_of_le_of_lt hqp hpx, fun h => hk' (relClose_left hqp h hpx.le)⟩
        rcases List.mem_cons.1 ho with rfl | ho
        · exact hqx
        · have := (List.pairwise_cons.1 h1).1 o ho
          exact ⟨hqx.1.trans this.1, fun h => this.2 (relClose_left hqx.1.le h this.1.le)⟩
      · intro o ho
        rcases List.mem_cons.1 ho with rfl | ho
        · simp
        · exact List.mem_cons_of_mem _ (h2 o ho)
      · intro y hy
        rcases List.mem_cons.1 hy with rfl | hy
        · left; simp
        · rcases h3 y hy with h | ⟨z, hz, hlt, hc⟩
          · left; simp [h]
          · right
            refine ⟨z, ?_, hlt, hc⟩
            rcases hz with rfl | hz
            · right; simp
            · right; simp [hz]
    · rw [if_neg hk]
      have hk' : RelClose eps p x := by
        by_contra h; exact hk (keep_iff.2 h)
      obtain ⟨h1, h2, h3⟩ := ih q x (hqp.trans hpx.le) hs.1 hs.2
      refine ⟨h1, fun o ho => List.mem_cons_of_mem _ (h2 o ho), ?_⟩
      intro y hy
      rcases List.mem_cons.1 hy with rfl | hy
      · exact .inr ⟨p, .inl rfl, hpx, hk'⟩
      · rcases h3 y hy with h | ⟨z, hz, hlt, hc⟩
        · exact .inl h
        · right
          refine ⟨z, ?_, hlt, hc⟩
          rcases hz with rfl | hz
          · right; simp
          · right; simp [hz]

theorem npUnique_spec (tab : List (Ext K)) :
    (npUnique tab).Pairwise (· < ·) ∧ ∀ x, x ∈ npUnique tab ↔ x ∈ tab := by
  unfold npUnique
  have hs : (tab.insertionSort (· ≤ ·)).Pairwise (· ≤ ·) := List.pairwise_insertionSort _ tab
  constructor
  · have h1 : ((tab.insertionSort (· ≤ ·)).dedup).Pairwise (· ≤ ·) := hs.sublist (List.dedup_sublist _)
    have h2 : ((tab.insertionSort (· ≤ ·)).dedup).Pairwise (· ≠ ·) := List.nodup_dedup _
    exact (h1.and h2).imp fun h => lt_of_le_of_ne h.1 h.2
  · intro x
    rw [List.mem_dedup]
    exact (List.perm_insertionSort _ tab).mem_iff

end Breaks

/-- The full claim for `epsunique`: every input point has a kept point below or at it within tolerance. -/
def C17_full_epsunique (eps : ℚ) : Prop :=
  ∀ (tab : List (Ext ℚ)) (x : Ext ℚ), x ∈ tab →
    ∃ o ∈ epsunique eps tab, o = x ∨ (o < x ∧ RelClose eps o x)

/-- **C17, break points of products and quotients, partial.** For every list of points (infinite ones
included): the result is strictly increasing, contains only given points, no kept point is within tolerance
of another kept point below it, the smallest and all infinite points are kept, and every point dropped has
a given point below it within tolerance.  Missing: that given point need not be a kept one (see
`C17_violated_chain`). -/
theorem C17_epsunique_partial (eps : K) (tab : List (Ext K)) :
    (epsunique eps tab).Pairwise (fun a b => a < b ∧ ¬ RelClose eps a b) ∧
    (∀ o ∈ epsunique eps tab, o ∈ tab) ∧
    (∀ x ∈ tab, x ∈ epsunique eps tab ∨ ∃ y ∈ tab, y < x ∧ RelClose eps y x) ∧
    (∀ x ∈ tab, (∀ y ∈ tab, x ≤ y) → x ∈ epsunique eps tab) ∧
    (∀ x ∈ tab, (x = Ext.ninf ∨ x = Ext.pinf) → x ∈ epsunique eps tab) := by
  obtain ⟨hs, hm⟩ := npUnique_spec tab
  have hmain : (epsunique eps tab).Pairwise (fun a b => a < b ∧ ¬ RelClose eps a b) ∧
      (∀ o ∈ epsunique eps tab, o ∈ tab) ∧
      (∀ x ∈ tab, x ∈ epsunique eps tab ∨ ∃ y ∈ tab, y < x ∧ RelClose eps y x) := by
    unfold epsunique
    cases hl : npUnique tab with
    | nil =>
      rw [hl] at hm
      refine ⟨by simp, by simp, fun x hx => by simpa using (hm x).2 hx⟩
    | cons x xs =>
      rw [hl] at hs hm
      rw [List.pairwise_cons] at hs
      obtain ⟨h1, h2, h3⟩ := keepFrom_spec eps xs x x le_rfl hs.1 hs.2
      refine ⟨h1, ?_, ?_⟩
      · intro o ho
        rcases List.mem_cons.1 ho with rfl | ho
        · exact (hm _).1 (by simp)
        · exact (hm _).1 (by simp [h2 o ho])
      · intro y hy
        rcases List.mem_cons.1 ((hm y).2 hy) with rfl | hy
        · left; simp
        · rcases h3 y hy with h | ⟨z, hz, hlt, hc⟩
          · left; simp [h]
          · right
            refine ⟨z, (hm z).1 ?_, hlt, hc⟩
            rcases hz with rfl | hz
            · simp
            · simp [hz]
  obtain ⟨h1, h2, h3⟩ := hmain
  refine ⟨h1, h2, h3, ?_, ?_⟩
  · intro x hx hmin
    rcases h3 x hx with h | ⟨y, hy, hlt, _⟩
    · exact h
    · exact absurd hlt (not_lt.2 (hmin y hy))
  · intro x hx hinf
    rcases h3 x hx with h | ⟨y, hy, hlt, a, b, _, hb, _⟩
    · exact h
    · exfalso
      rcases hinf with rfl | rfl
      · cases hb
      · cases hb

example : epsunique (1 / 10 : ℚ) [Ext.fin 2, Ext.ninf, Ext.fin 1, Ext.fin (21 / 20), Ext.pinf, Ext.fin 1]
    = [Ext.ninf, Ext.fin 1, Ext.fin 2, Ext.pinf] := by decide +kernel

/-- **C17 violated by `epsunique`**: a chain of points, each within tolerance of its predecessor, collapses
to its first point, however far the last one is. With tolerance 1/10 the points 0, 1/10, …, 5/10 collapse
to 0. -/
theorem C17_violated_chain : ¬ C17_full_epsunique (1 / 10) := by
  intro h
  obtain ⟨o, ho, h⟩ := h [Ext.fin 0, Ext.fin (1/10), Ext.fin (2/10), Ext.fin (3/10), Ext.fin (4/10),
    Ext.fin (5/10)] (Ext.fin (5/10)) (by simp)
  have : epsunique (1 / 10 : ℚ) [Ext.fin 0, Ext.fin (1/10), Ext.fin (2/10), Ext.fin (3/10), Ext.fin (4/10),
    Ext.fin (5/10)] = [Ext.fin 0] := by decide +kernel
  rw [this, List.mem_singleton] at ho
  subst ho
  rcases h with h | ⟨_, a, b, ha, hb, h⟩
  · rw [fin_inj] at h; norm_num at h
  · rw [fin_inj] at ha hb
    subst ha hb
    rw [max_eq_left (by rw [abs_of_pos (by norm_num)]; norm_num)] at h
    norm_num at h

end Pacal
