import Verif.Graph.Spec
import Mathlib.Data.List.Basic
import Mathlib.Data.Finset.Lattice.Basic

/-! Lemmas about the traversals of the object graph. -/

namespace Pacal
namespace Graph
variable {V : Type}

theorem lt_length {h : Heap V} {i : ℕ} {n : Node V} (e : h[i]? = some n) : i < h.length := by
  rcases Nat.lt_or_ge i h.length with hl | hl
  · exact hl
  · rw [List.getElem?_eq_none hl] at e; cases e

theorem exists_node {h : Heap V} {i : ℕ} (hi : i < h.length) : ∃ n, h[i]? = some n :=
  ⟨h[i], List.getElem?_eq_getElem hi⟩

theorem anc_iff {h : Heap V} {i j : ℕ} {n : Node V} (e : h[i]? = some n) :
    Anc h i j ↔ j = i ∨ ∃ p ∈ n.parents, Anc h p j := by
  constructor
  · intro ha
    rcases Relation.ReflTransGen.cases_head ha with h1 | ⟨p, ⟨n', e', hp⟩, h2⟩
    · exact .inl h1.symm
    · rw [e] at e'; cases e'; exact .inr ⟨p, hp, h2⟩
  · rintro (rfl | ⟨p, hp, h2⟩)
    · exact .refl
    · exact .head ⟨n, e, hp⟩ h2

theorem occurs_op {h : Heap V} {i j : ℕ} {n : Node V} {f : List V → V} (e : h[i]? = some n)
    (hk : n.kind = .op f) : Occurs h i j ↔ j = i ∨ ∃ p ∈ n.args, Occurs h p j := by
  constructor
  · intro ha
    rcases Relation.ReflTransGen.cases_head ha with h1 | ⟨p, ⟨n', f', e', _, hp⟩, h2⟩
    · exact .inl h1.symm
    · rw [e] at e'; cases e'; exact .inr ⟨p, hp, h2⟩
  · rintro (rfl | ⟨p, hp, h2⟩)
    · exact .refl
    · exact .head ⟨n, f, e, hk, hp⟩ h2

theorem occurs_raw {h : Heap V} {i j : ℕ} {n : Node V} (e : h[i]? = some n) (hk : n.kind = .raw) :
    Occurs h i j ↔ j = i := by
  constructor
  · intro ha
    rcases Relation.ReflTransGen.cases_head ha with h1 | ⟨p, ⟨n', f', e', hk', hp⟩, h2⟩
    · exact h1.symm
    · rw [e] at e'; cases e'; rw [hk] at hk'; cases hk'
  · rintro rfl; exact .refl

theorem foldlM_ancIDs {h : Heap V} (k : ℕ)
    (ih : ∀ i anc, i < k → i < h.length → (∀ j ∈ anc, ∀ l, Anc h j l → l ∈ anc) →
      ∃ r, ancIDs h k i anc = .ok r ∧ ∀ j, j ∈ r ↔ j ∈ anc ∨ Anc h i j) :
    ∀ (ps : List ℕ) (anc : Finset ℕ), (∀ p ∈ ps, p < k ∧ p < h.length) →
      (∀ j ∈ anc, ∀ l, Anc h j l → l ∈ anc) →
      ∃ r, ps.foldlM (fun anc p => if p ∈ anc then (.ok anc : Except PyErr _) else ancIDs h k p anc) anc
        = .ok r ∧ ∀ j, j ∈ r ↔ j ∈ anc ∨ ∃ p ∈ ps, Anc h p j := by
  intro ps
  induction ps with
  | nil => intro anc _ _; exact ⟨anc, rfl, fun j => by simp⟩
  | cons p ps ihp =>
    intro anc hps hcl
    have hp := hps p (by simp)
    by_cases hm : p ∈ anc
    · obtain ⟨r, h1, h2⟩ := ihp anc (fun q hq => hps q (by simp [hq])) hcl
      refine ⟨r, ?_, ?_⟩
      · rw [List.foldlM_cons]; simp only [hm, if_true]; exact h1
      · intro j
        rw [h2]
        constructor
        · rintro (h | ⟨q, hq, h⟩)
          · exact .inl h
          · exact .inr ⟨q, by simp [hq], h⟩
        · rintro (h | ⟨q, hq, h⟩)
          · exact .inl h
          · rcases List.mem_cons.1 hq with rfl | hq
            · exact .inl (hcl _ hm _ h)
            · exact .inr ⟨q, hq, h⟩
    · obtain ⟨r₀, g1, g2⟩ := ih p anc hp.1 hp.2 hcl
      have hcl' : ∀ j ∈ r₀, ∀ l, Anc h j l → l ∈ r₀ := by
        intro j hj l hl
        rcases (g2 j).1 hj with h | h
        · exact (g2 l).2 (.inl (hcl j h l hl))
        · exact (g2 l).2 (.inr (Relation.ReflTransGen.trans h hl))
      obtain ⟨r, h1, h2⟩ := ihp r₀ (fun q hq => hps q (by simp [hq])) hcl'
      refine ⟨r, ?_, ?_⟩
      · rw [List.foldlM_cons]; simp only [hm, if_false, g1]; exact h1
      · intro j
        rw [h2, g2]
        simp [or_assoc]

theorem ancIDs_spec {h : Heap V} (hwf : WF h) : ∀ k i anc, i < k → i < h.length →
    (∀ j ∈ anc, ∀ l, Anc h j l → l ∈ anc) →
      ∃ r, ancIDs h k i anc = .ok r ∧ ∀ j, j ∈ r ↔ j ∈ anc ∨ Anc h i j := by
  intro k
  induction k with
  | zero => intro i anc hi; omega
  | succ k ih =>
    intro i anc hi hl hcl
    obtain ⟨n, e⟩ := exists_node hl
    obtain ⟨r, h1, h2⟩ := foldlM_ancIDs k ih n.parents anc (fun p hp => by
      have := (hwf i n e).1 p hp; omega) hcl
    refine ⟨insert i r, ?_, ?_⟩
    · simp only [ancIDs, e, h1]; rfl
    · intro j
      rw [Finset.mem_insert, h2, anc_iff e]
      tauto

theorem checkLoop_spec {h : Heap V} (hwf : WF h) (k : ℕ) (hk : h.length ≤ k) :
    ∀ (ps : List ℕ) (anc : Finset ℕ), (∀ p ∈ ps, p < h.length) →
      ∃ w, checkLoop h k ps anc = .ok w ∧
        (w = true ↔ (∃ p ∈ ps, ∃ j ∈ anc, Anc h p j) ∨
          ¬ ps.Pairwise (fun p q => ¬ ∃ j, Anc h p j ∧ Anc h q j)) := by
  intro ps
  induction ps with
  | nil => intro anc _; exact ⟨false, rfl, by simp⟩
  | cons p ps ih =>
    intro anc hps
    have hp := hps p (by simp)
    obtain ⟨r, h1, h2⟩ := ancIDs_spec hwf k p ∅ (by omega) hp (by simp)
    have h2' : ∀ j, j ∈ r ↔ Anc h p j := by intro j; rw [h2]; simp
    by_cases hn : (r ∩ anc).Nonempty
    · refine ⟨true, ?_, ?_⟩
      · simp only [checkLoop, h1]
        show (if (r ∩ anc).Nonempty then _ else _) = _
        rw [if_pos hn]
      · refine ⟨fun _ => .inl ?_, fun _ => rfl⟩
        obtain ⟨j, hj⟩ := hn
        rw [Finset.mem_inter] at hj
        exact ⟨p, by simp, j, hj.2, (h2' j).1 hj.1⟩
    · obtain ⟨w, g1, g2⟩ := ih (anc ∪ r) (fun q hq => hps q (by simp [hq]))
      refine ⟨w, ?_, ?_⟩
      · simp only [checkLoop, h1]
        show (if (r ∩ anc).Nonempty then _ else _) = _
        rw [if_neg hn]; exact g1
      · rw [g2, List.pairwise_cons]
        have hno : ∀ j, Anc h p j → j ∉ anc := by
          intro j hj hja
          exact hn ⟨j, Finset.mem_inter.2 ⟨(h2' j).2 hj, hja⟩⟩
        constructor
        · rintro (⟨q, hq, j, hj, ha⟩ | hpw)
          · rcases Finset.mem_union.1 hj with hj | hj
            · exact .inl ⟨q, by simp [hq], j, hj, ha⟩
            · refine .inr fun hh => hh.1 q hq ⟨j, (h2' j).1 hj, ha⟩
          · exact .inr fun hh => hpw hh.2
        · rintro (⟨q, hq, j, hj, ha⟩ | hpw)
          · rcases List.mem_cons.1 hq with rfl | hq
            · exact absurd hj (hno j ha)
            · exact .inl ⟨q, hq, j, Finset.mem_union_left _ hj, ha⟩
          · by_cases hpw' : ps.Pairwise (fun p q => ¬ ∃ j, Anc h p j ∧ Anc h q j)
            · have : ¬ ∀ q ∈ ps, ¬ ∃ j, Anc h p j ∧ Anc h q j := fun hh => hpw ⟨hh, hpw'⟩
              push Not at this
              obtain ⟨q, hq, j, hj1, hj2⟩ := this
              exact .inl ⟨q, hq, j, Finset.mem_union_right _ ((h2' j).2 hj1), hj2⟩
            · exact .inr hpw'

/-- collecting sets over the parents -/
theorem foldlM_union {S : ℕ → ℕ → Prop} (f : ℕ → Except PyErr (Finset ℕ)) :
    ∀ (ps : List ℕ) (l : Finset ℕ),
      (∀ p ∈ ps, ∃ r, f p = .ok r ∧ ∀ j, j ∈ r ↔ S p j) →
      ∃ r, ps.foldlM (fun l p => do let r ← f p; (.ok (l ∪ r) : Except PyErr _)) l = .ok r ∧
        ∀ j, j ∈ r ↔ j ∈ l ∨ ∃ p ∈ ps, S p j := by
  intro ps
  induction ps with
  | nil => intro l _; exact ⟨l, rfl, by simp⟩
  | cons p ps ih =>
    intro l hps
    obtain ⟨r₀, g1, g2⟩ := hps p (by simp)
    obtain ⟨r, h1, h2⟩ := ih (l ∪ r₀) (fun q hq => hps q (by simp [hq]))
    refine ⟨r, ?_, ?_⟩
    · rw [List.foldlM_cons, g1]; exact h1
    · intro j
      rw [h2, Finset.mem_union, g2]
      simp [or_assoc]

theorem parentsFree_spec {h : Heap V} (hwf : WF h) : ∀ k i, i < k → i < h.length →
    ∃ r, parentsFree h k i = .ok r ∧
      ∀ j, j ∈ r ↔ Anc h i j ∧ ∃ n, h[j]? = some n ∧ n.parents = [] := by
  intro k
  induction k with
  | zero => intro i hi; omega
  | succ k ih =>
    intro i hi hl
    obtain ⟨n, e⟩ := exists_node hl
    obtain ⟨r, h1, h2⟩ := foldlM_union
      (S := fun p j => Anc h p j ∧ ∃ n, h[j]? = some n ∧ n.parents = []) (parentsFree h k) n.parents
      (if n.parents.length = 0 then {i} else ∅) (fun p hp => ih p (by
        have := (hwf i n e).1 p hp; omega) (by have := (hwf i n e).1 p hp; omega))
    refine ⟨r, by simp only [parentsFree, e]; exact h1, ?_⟩
    intro j
    rw [h2, anc_iff e]
    constructor
    · rintro (hj | ⟨p, hp, ha, hb⟩)
      · split at hj
        · next h0 =>
          rw [Finset.mem_singleton] at hj; subst hj
          exact ⟨.inl rfl, n, e, List.length_eq_zero_iff.1 h0⟩
        · simp at hj
      · exact ⟨.inr ⟨p, hp, ha⟩, hb⟩
    · rintro ⟨rfl | ⟨p, hp, ha⟩, hb⟩
      · obtain ⟨n', e', h0⟩ := hb
        rw [e] at e'; cases e'
        left; rw [if_pos (by rw [h0]; rfl)]; simp
      · exact .inr ⟨p, hp, ha, hb⟩

theorem parentsDep_spec {h : Heap V} (hwf : WF h) : ∀ k i, i < k → i < h.length →
    ∃ r, parentsDep h k i = .ok r ∧
      ∀ j, j ∈ r ↔ Anc h i j ∧ ∃ n, h[j]? = some n ∧ n.parents ≠ [] := by
  intro k
  induction k with
  | zero => intro i hi; omega
  | succ k ih =>
    intro i hi hl
    obtain ⟨n, e⟩ := exists_node hl
    obtain ⟨r, h1, h2⟩ := foldlM_union
      (S := fun p j => Anc h p j ∧ ∃ n, h[j]? = some n ∧ n.parents ≠ []) (parentsDep h k) n.parents
      (if n.parents.length > 0 then {i} else ∅) (fun p hp => ih p (by
        have := (hwf i n e).1 p hp; omega) (by have := (hwf i n e).1 p hp; omega))
    refine ⟨r, by simp only [parentsDep, e]; exact h1, ?_⟩
    intro j
    rw [h2, anc_iff e]
    constructor
    · rintro (hj | ⟨p, hp, ha, hb⟩)
      · split at hj
        · next h0 =>
          rw [Finset.mem_singleton] at hj; subst hj
          exact ⟨.inl rfl, n, e, List.length_pos_iff.1 h0⟩
        · simp at hj
      · exact ⟨.inr ⟨p, hp, ha⟩, hb⟩
    · rintro ⟨rfl | ⟨p, hp, ha⟩, hb⟩
      · obtain ⟨n', e', h0⟩ := hb
        rw [e] at e'; cases e'
        left; rw [if_pos (List.length_pos_iff.2 h0)]; simp
      · exact .inr ⟨p, hp, ha, hb⟩

theorem parentsAll_spec {h : Heap V} (hwf : WF h) (k i : ℕ) (hi : h.length ≤ k) (hl : i < h.length) :
    ∃ r, parentsAll h k i = .ok r ∧
      ∀ j, j ∈ r ↔ j = i ∨ (Anc h i j ∧ ∃ n, h[j]? = some n ∧ n.parents ≠ []) := by
  obtain ⟨n, e⟩ := exists_node hl
  obtain ⟨r, h1, h2⟩ := foldlM_union
    (S := fun p j => Anc h p j ∧ ∃ n, h[j]? = some n ∧ n.parents ≠ []) (parentsDep h k) n.parents
    {i} (fun p hp => parentsDep_spec hwf k p (by
      have := (hwf i n e).1 p hp; omega) (by have := (hwf i n e).1 p hp; omega))
  refine ⟨r, by simp only [parentsAll, e]; exact h1, ?_⟩
  intro j
  rw [h2, Finset.mem_singleton, anc_iff e]
  constructor
  · rintro (hj | ⟨p, hp, ha, hb⟩)
    · exact .inl hj
    · exact .inr ⟨.inr ⟨p, hp, ha⟩, hb⟩
  · rintro (hj | ⟨rfl | ⟨p, hp, ha⟩, hb⟩)
    · exact .inl hj
    · exact .inl rfl
    · exact .inr ⟨p, hp, ha, hb⟩

end Graph
end Pacal
