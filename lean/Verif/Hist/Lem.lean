import Verif.Hist.Spec
import Mathlib.Tactic.Linarith
import Mathlib.Tactic.FieldSimp
import Mathlib.Tactic.Ring
import Mathlib.Tactic.Positivity

/-! Lemmas for histograms. -/

namespace Pacal
namespace Hist

theorem keep_eq (A : Args) (x : List ℝ) : keep A x = open Classical in x.filter fun t => InRange A t := by
  classical
  unfold keep InRange
  cases A.xmin <;> cases A.xmax <;> simp [List.filter_filter, Bool.and_comm]

theorem keep_append (A : Args) (x y : List ℝ) : keep A (x ++ y) = keep A x ++ keep A y := by
  simp [keep_eq]

theorem keep_length (A : Args) (x : List ℝ) : (keep A x).length ≤ x.length := by
  rw [keep_eq]; exact List.length_filter_le ..

variable {A : Args} {rand : ℕ → ℕ → List ℝ}

theorem collect_spec (hr : ∀ k m, (rand k m).length = m) (fuel : ℕ) : ∀ (k : ℕ) (X D : List ℝ), Draws rand k D → X = keep A D →
    A.limit ≤ fuel + D.length → X.length ≤ A.n → D.length < A.limit + A.n ∨ D = [] →
    ∃ K D', Draws rand K D' ∧ collect A rand fuel k X D.length = (keep A D', D'.length) ∧ (keep A D').length ≤ A.n ∧
      ((keep A D').length = A.n ∨ A.limit ≤ D'.length) ∧ (D'.length < A.limit + A.n ∨ D' = []) := by
  induction fuel with
  | zero =>
    intro k X D hD hX hf hn hl
    subst hX
    exact ⟨k, D, hD, rfl, hn, .inr (by omega), hl⟩
  | succ fuel ih =>
    intro k X D hD hX hf hn hl
    rw [collect]
    split_ifs with h
    · have hx : (rand k (A.n - X.length)).length = A.n - X.length := hr _ _
      have hlen : D.length + (rand k (A.n - X.length)).length = (D ++ rand k (A.n - X.length)).length := by simp
      simp only
      rw [hlen]
      refine ih (k + 1) _ (D ++ rand k (A.n - X.length)) ?_ ?_ ?_ ?_ ?_
      · obtain ⟨m, rfl⟩ := hD
        refine ⟨fun i => if i = k then A.n - X.length else m i, ?_⟩
        rw [List.range_succ, List.flatMap_append]
        congr 1
        · refine List.flatMap_congr fun i hi => ?_
          have := List.mem_range.1 hi
          simp only [if_neg this.ne]
        · simp
      · rw [keep_append, hX]
      · rw [List.length_append, hx]; omega
      · have := keep_length A (rand k (A.n - X.length))
        rw [List.length_append]; omega
      · left
        rw [List.length_append, hx]; omega
    · subst hX
      refine ⟨k, D, hD, rfl, hn, ?_, hl⟩
      omega

theorem sample_spec (hr : ∀ k m, (rand k m).length = m) : ∃ K D, Draws rand K D ∧ sample A rand = (keep A D, D.length) ∧
    (keep A D).length ≤ A.n ∧ ((A.xmin = none ∧ A.xmax = none → D = rand 0 A.n) ∧ ((keep A D).length = A.n ∨ A.limit ≤ D.length)) ∧
      (D.length ≤ A.limit + A.n) := by
  unfold sample
  split_ifs with h
  · simp only [Bool.and_eq_true, Option.isNone_iff_eq_none] at h
    have hk : ∀ x, keep A x = x := by intro x; unfold keep; rw [h.1, h.2]
    refine ⟨1, rand 0 A.n, ⟨fun _ => A.n, by simp⟩, by rw [hk], ?_, ⟨fun _ => rfl, .inl ?_⟩, ?_⟩
    · rw [hk, hr]
    · rw [hk, hr]
    · rw [hr]; omega
  · obtain ⟨K, D, h1, h2, h3, h4, h5⟩ := collect_spec (A := A) hr A.limit 0 [] [] ⟨fun _ => 0, rfl⟩ (by simp [keep_eq]) (by simp) (by simp)
      (.inr rfl)
    refine ⟨K, D, h1, h2, h3, ⟨fun hn => ?_, h4⟩, ?_⟩
    · rw [hn.1, hn.2] at h; simp at h
    · rcases h5 with h5 | rfl
      · exact h5.le
      · simp

theorem foldl_min (l : List ℝ) (x : ℝ) : (l.foldl min x = x ∨ l.foldl min x ∈ l) ∧ l.foldl min x ≤ x ∧ ∀ y ∈ l, l.foldl min x ≤ y := by
  induction l generalizing x with
  | nil => simp
  | cons a l ih =>
    obtain ⟨h1, h2, h3⟩ := ih (min x a)
    rw [List.foldl_cons]
    refine ⟨?_, h2.trans (min_le_left _ _), ?_⟩
    · rcases h1 with h1 | h1
      · rcases min_choice x a with e | e
        · exact .inl (h1.trans e)
        · exact .inr (by rw [h1, e]; simp)
      · exact .inr (List.mem_cons_of_mem _ h1)
    · intro y hy
      rcases List.mem_cons.1 hy with rfl | hy
      · exact h2.trans (min_le_right _ _)
      · exact h3 y hy

theorem foldl_max (l : List ℝ) (x : ℝ) : (l.foldl max x = x ∨ l.foldl max x ∈ l) ∧ x ≤ l.foldl max x ∧ ∀ y ∈ l, y ≤ l.foldl max x := by
  induction l generalizing x with
  | nil => simp
  | cons a l ih =>
    obtain ⟨h1, h2, h3⟩ := ih (max x a)
    rw [List.foldl_cons]
    refine ⟨?_, (le_max_left _ _).trans h2, ?_⟩
    · rcases h1 with h1 | h1
      · rcases max_choice x a with e | e
        · exact .inl (h1.trans e)
        · exact .inr (by rw [h1, e]; simp)
      · exact .inr (List.mem_cons_of_mem _ h1)
    · intro y hy
      rcases List.mem_cons.1 hy with rfl | hy
      · exact (le_max_right _ _).trans h2
      · exact h3 y hy

theorem ends_spec {X : List ℝ} (h : X ≠ []) : ∃ mm, ends X = some mm ∧ mm.1 ∈ X ∧ mm.2 ∈ X ∧ ∀ x ∈ X, mm.1 ≤ x ∧ x ≤ mm.2 := by
  cases X with
  | nil => exact absurd rfl h
  | cons x l =>
    obtain ⟨a1, a2, a3⟩ := foldl_min l x
    obtain ⟨b1, b2, b3⟩ := foldl_max l x
    refine ⟨_, rfl, ?_, ?_, ?_⟩
    · rcases a1 with e | e
      · rw [e]; simp
      · exact List.mem_cons_of_mem _ e
    · rcases b1 with e | e
      · rw [e]; simp
      · exact List.mem_cons_of_mem _ e
    · intro y hy
      rcases List.mem_cons.1 hy with rfl | hy
      · exact ⟨a2, b2⟩
      · exact ⟨a3 y hy, b3 y hy⟩

theorem edge_last {bins : ℕ} (hb : bins ≠ 0) (o : ℝ × ℝ) : edge bins o bins = o.2 := by
  have : (bins : ℝ) ≠ 0 := by exact_mod_cast hb
  unfold edge; field_simp; ring

theorem edge_zero (bins : ℕ) (o : ℝ × ℝ) : edge bins o 0 = o.1 := by simp [edge]

theorem edge_succ (bins : ℕ) (o : ℝ × ℝ) (k : ℕ) : edge bins o (k + 1) = edge bins o k + (o.2 - o.1) / bins := by
  unfold edge; push_cast; ring

/-- all values are counted once -/
theorem count_sum {bins : ℕ} {o : ℝ × ℝ} {X : List ℝ} (ho : o.1 ≤ o.2) (hX : ∀ x ∈ X, o.1 ≤ x ∧ x ≤ o.2) (hb : bins ≠ 0) :
    ((List.range bins).map fun k => count bins o X k).sum = X.length := by
  classical
  have h0 : 0 ≤ (o.2 - o.1) / bins := div_nonneg (by linarith) (Nat.cast_nonneg _)
  have mono : ∀ k, edge bins o k ≤ edge bins o (k + 1) := fun k => by rw [edge_succ]; linarith
  have add : ∀ (p q r : ℝ → Bool), (∀ x ∈ X, r x = (p x || q x)) → (∀ x ∈ X, ¬(p x = true ∧ q x = true)) →
      X.countP p + X.countP q = X.countP r := by
    intro p q r h1 h2
    induction X with
    | nil => rfl
    | cons a l ih =>
      have := ih (fun x hx => hX x (List.mem_cons_of_mem _ hx)) (fun x hx => h1 x (List.mem_cons_of_mem _ hx))
        (fun x hx => h2 x (List.mem_cons_of_mem _ hx))
      rw [List.countP_cons, List.countP_cons, List.countP_cons, h1 a (by simp), ← this]
      have := h2 a (by simp)
      rcases Bool.eq_false_or_eq_true (p a) with hp | hp <;> rcases Bool.eq_false_or_eq_true (q a) with hq | hq
      · exact absurd ⟨hp, hq⟩ this
      · rw [hp, hq]; simp only [Bool.or_false, if_true, Bool.false_eq_true, if_false]; omega
      · rw [hp, hq]; simp only [Bool.or_true, if_true, Bool.false_eq_true, if_false]; omega
      · rw [hp, hq]; simp only [Bool.or_false, Bool.false_eq_true, if_false]; omega
  have key : ∀ m, m < bins → ((List.range m).map fun k => count bins o X k).sum = X.countP fun x => x < edge bins o m := by
    intro m
    induction m with
    | zero =>
      intro _
      rw [edge_zero]
      symm
      simp only [List.range_zero, List.map_nil, List.sum_nil, List.countP_eq_zero, decide_eq_true_eq, not_lt]
      exact fun x hx => (hX x hx).1
    | succ m ih =>
      intro hm
      rw [List.range_succ, List.map_append, List.sum_append, ih (by omega)]
      simp only [List.map_cons, List.map_nil, List.sum_cons, List.sum_nil, add_zero, count]
      refine add _ _ _ (fun x _ => ?_) fun x _ => ?_
      · simp only [if_neg (show ¬ (m + 1 = bins) by omega)]
        have := mono m
        rw [← Bool.decide_or, decide_eq_decide]
        constructor
        · intro h
          by_cases h' : x < edge bins o m
          · exact .inl h'
          · exact .inr ⟨not_lt.1 h', h⟩
        · rintro (h | h)
          · exact h.trans_le this
          · exact h.2
      · simp only [decide_eq_true_eq]
        rintro ⟨h1, h2, -⟩
        exact absurd h1 (not_lt.2 h2)
  obtain ⟨m, rfl⟩ := Nat.exists_eq_succ_of_ne_zero hb
  rw [Nat.succ_eq_add_one, List.range_succ, List.map_append, List.sum_append, key m (by omega)]
  simp only [List.map_cons, List.map_nil, List.sum_cons, List.sum_nil, add_zero, count, if_true]
  rw [← List.countP_true]
  refine add _ _ _ (fun x hx => ?_) fun x _ => ?_
  · have e := edge_last hb o
    rw [e, ← Bool.decide_or]
    symm
    rw [decide_eq_true_eq]
    by_cases h' : x < edge (m + 1) o m
    · exact .inl h'
    · exact .inr ⟨not_lt.1 h', (hX x hx).2⟩
  · simp only [decide_eq_true_eq]
    rintro ⟨h1, h2, -⟩
    exact absurd h1 (not_lt.2 h2)

end Hist
end Pacal
