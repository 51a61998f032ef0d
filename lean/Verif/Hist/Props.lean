import Verif.Hist.Lem
import Mathlib.Tactic.NormNum
import Mathlib.Algebra.BigOperators.Ring.Finset
import Mathlib.Algebra.BigOperators.Ring.List

/-! C85: histograms. -/

namespace Pacal
namespace Hist

variable {A : Args} {rand : ℕ → ℕ → List ℝ}

/-- **C85**: the histogram is drawn on the scale of a density: equally wide bars from the smallest to the largest value drawn in the
range, whose areas are the proportions of draws in them.  No more than `max_samp + n` values are drawn, and `n` of them are in the
range unless `max_samp` is reached.  The full statement has no condition that two different values are drawn. -/
theorem C85_hist_partial (hr : ∀ k m, (rand k m).length = m) (hb : A.bins ≠ 0) :
    ∃ (K : ℕ) (D : List ℝ), Draws rand K D ∧ D.length ≤ A.limit + A.n ∧
      (open Classical in D.countP fun x => InRange A x) ≤ A.n ∧
      ((open Classical in D.countP fun x => InRange A x) = A.n ∨ A.limit ≤ D.length) ∧
      (A.xmin = none ∧ A.xmax = none → D = rand 0 A.n) ∧
      ∀ x ∈ D, ∀ y ∈ D, InRange A x → InRange A y → x ≠ y →
        ∃ bs, hist A rand = .ok bs ∧ bs.length = A.bins ∧
          (∃ lo ∈ D, ∃ hi ∈ D, InRange A lo ∧ InRange A hi ∧ (∀ z ∈ D, InRange A z → lo ≤ z ∧ z ≤ hi) ∧ Tiles bs lo hi) ∧
          (∀ k c, bs[k]? = some c → c.area = drawn D A bs k c / D.length) ∧
          (bs.map Bar.area).sum = (open Classical in D.countP fun x => InRange A x) / D.length := by
  classical
  obtain ⟨K, D, hD, hs, h1, ⟨h2, h3⟩, h4⟩ := sample_spec (A := A) hr
  have hcount : D.countP (fun x => InRange A x) = (keep A D).length := by
    rw [keep_eq, List.countP_eq_length_filter]
  have hmem : ∀ z, z ∈ keep A D ↔ z ∈ D ∧ InRange A z := by
    intro z; rw [keep_eq, List.mem_filter, decide_eq_true_eq]
  refine ⟨K, D, hD, h4, by rw [hcount]; exact h1, by rw [hcount]; exact h3, h2, ?_⟩
  intro x hx y hy ix iy hxy
  have mx := (hmem x).2 ⟨hx, ix⟩
  have my := (hmem y).2 ⟨hy, iy⟩
  have hne : keep A D ≠ [] := List.ne_nil_of_mem mx
  obtain ⟨⟨lo, hi⟩, he, e1, e2, e3⟩ := ends_spec hne
  simp only at e1 e2 e3
  have hlt : lo < hi := by
    obtain ⟨a1, a2⟩ := e3 x mx
    obtain ⟨b1, b2⟩ := e3 y my
    rcases lt_or_gt_of_ne hxy with h | h <;> linarith
  have hbp : (0 : ℝ) < A.bins := by exact_mod_cast Nat.pos_of_ne_zero hb
  have hw : 0 < (hi - lo) / (A.bins : ℝ) := div_pos (by linarith) hbp
  have hwid : edge A.bins (lo, hi) 1 - edge A.bins (lo, hi) 0 = (hi - lo) / A.bins := by
    rw [show 1 = 0 + 1 from rfl, edge_succ]; simp
  have hdn : (D.length : ℝ) ≠ 0 := by
    have := List.length_pos_of_mem hx
    exact_mod_cast this.ne'
  obtain ⟨mk, hmk⟩ : ∃ mk : ℕ → Bar, mk = fun k => ⟨edge A.bins (lo, hi) k,
    count A.bins (lo, hi) (keep A D) k * (1 / (D.length : ℝ) / ((hi - lo) / A.bins)), (hi - lo) / A.bins⟩ := ⟨_, rfl⟩
  have hh : hist A rand = .ok ((List.range A.bins).map mk) := by
    unfold hist
    rw [hs, hmk]
    simp only [bars, he, if_neg hb, outer, if_neg hlt.ne, hwid, if_neg hw.ne']
  have harea : ∀ k, (mk k).area = count A.bins (lo, hi) (keep A D) k / D.length := by
    intro k
    rw [hmk]
    unfold Bar.area
    simp only
    have := hw.ne'
    generalize (hi - lo) / (A.bins : ℝ) = w at *
    field_simp
  refine ⟨_, hh, by simp, ⟨lo, ((hmem lo).1 e1).1, hi, ((hmem hi).1 e2).1, ((hmem lo).1 e1).2, ((hmem hi).1 e2).2, ?_, ?_⟩, ?_, ?_⟩
  · exact fun z hz iz => e3 z ((hmem z).2 ⟨hz, iz⟩)
  · refine ⟨?_, ?_, ?_, ?_, ?_⟩
    · intro c hc
      obtain ⟨m, hm⟩ := Nat.exists_eq_succ_of_ne_zero hb
      rw [hm, Nat.succ_eq_add_one, List.range_succ_eq_map, List.map_cons, List.head?_cons, Option.some.injEq] at hc
      rw [← hc, hmk]
      exact edge_zero _ _
    · intro c hc
      obtain ⟨m, hm⟩ := Nat.exists_eq_succ_of_ne_zero hb
      have hl := edge_last hb (lo, hi)
      rw [hm, Nat.succ_eq_add_one, List.range_succ, List.map_append, List.map_singleton, List.getLast?_concat, Option.some.injEq] at hc
      rw [← hc, hmk]
      simp only
      rw [← edge_succ A.bins (lo, hi) m, ← Nat.succ_eq_add_one, ← hm]
      exact hl
    · rw [List.isChain_map]
      refine (List.isChain_range _ _).2 fun k _ => ?_
      rw [hmk]
      exact ⟨edge_succ .., rfl⟩
    · intro c hc
      obtain ⟨k, -, rfl⟩ := List.mem_map.1 hc
      rw [hmk]
      exact hw
    · intro h
      rw [List.map_eq_nil_iff, List.range_eq_nil] at h
      exact hb h
  · intro k c hc
    rw [List.getElem?_map, Option.map_eq_some_iff] at hc
    obtain ⟨k', hk', rfl⟩ := hc
    obtain ⟨hlt', rfl⟩ := List.getElem?_eq_some_iff.1 hk'
    rw [List.length_range] at hlt'
    rw [List.getElem_range, harea, drawn, count, keep_eq, List.countP_filter]
    congr 2
    refine List.countP_congr fun z hz => ?_
    rw [hmk]
    simp only [Bool.and_eq_true, decide_eq_true_eq, List.length_map, List.length_range]
    rw [← edge_succ A.bins (lo, hi) k]
    by_cases hk : k + 1 = A.bins
    · rw [if_pos hk]
      simp only [hk, true_and]
      rw [← le_iff_lt_or_eq]
      tauto
    · rw [if_neg hk]
      simp only [hk, false_and, or_false]
      tauto
  · rw [List.map_map, hcount, ← count_sum (o := (lo, hi)) hlt.le e3 hb]
    rw [show Bar.area ∘ mk = fun k => (count A.bins (lo, hi) (keep A D) k : ℝ) / D.length from funext harea]
    rw [Nat.cast_list_sum, List.map_map]
    simp only [div_eq_mul_inv]
    rw [← List.sum_map_mul_right]
    rfl

/-- **C85**: without a range, the total area is 1. -/
theorem C85_total_partial (hr : ∀ k m, (rand k m).length = m) (hb : A.bins ≠ 0) (h0 : A.xmin = none) (h1 : A.xmax = none)
    (h2 : ∃ x ∈ rand 0 A.n, ∃ y ∈ rand 0 A.n, x ≠ y) : ∃ bs, hist A rand = .ok bs ∧ (bs.map Bar.area).sum = 1 := by
  obtain ⟨K, D, -, -, -, -, hD, h⟩ := C85_hist_partial hr hb
  obtain rfl := hD ⟨h0, h1⟩
  obtain ⟨x, hx, y, hy, hxy⟩ := h2
  have hin : ∀ z, InRange A z := by
    intro z
    simp [InRange, h0, h1]
  obtain ⟨bs, e, -, -, -, hsum⟩ := h x hx y hy (hin x) (hin y) hxy
  refine ⟨bs, e, ?_⟩
  rw [hsum]
  have hl : (rand 0 A.n).length ≠ 0 := (List.length_pos_of_mem hx).ne'
  rw [List.countP_eq_length.2 fun z _ => by simp [hin z]]
  exact div_self (by exact_mod_cast hl)

/-- **C85 violated**: if all values are the same, as for a constant, the total area is `1 / bins` instead of 1: the heights are computed
for bars of width 1, but drawn with the width `1 / bins`. -/
theorem C85_violated_constant (c : ℝ) {n bins : ℕ} (hn : n ≠ 0) (hb : bins ≠ 0) :
    ∃ bs, hist { n := n, bins := bins } (fun _ m => List.replicate m c) = .ok bs ∧ (bs.map Bar.area).sum = 1 / bins := by
  have hbp : (bins : ℝ) ≠ 0 := by exact_mod_cast hb
  have hnp : (n : ℝ) ≠ 0 := by exact_mod_cast hn
  have he : ends (List.replicate n c) = some (c, c) := by
    obtain ⟨mm, h1, h2, h3, -⟩ := ends_spec (X := List.replicate n c) (by simpa using hn)
    rw [h1, show mm = (c, c) from Prod.ext (List.eq_of_mem_replicate h2) (List.eq_of_mem_replicate h3)]
  obtain ⟨o, ho⟩ : ∃ o : ℝ × ℝ, o = (c - 1 / 2, c + 1 / 2) := ⟨_, rfl⟩
  have hwid : edge bins o 1 - edge bins o 0 = 1 / bins := by
    rw [show 1 = 0 + 1 from rfl, edge_succ, ho]; ring
  obtain ⟨mk, hmk⟩ : ∃ mk : ℕ → Bar, mk = fun k => ⟨edge bins o k, count bins o (List.replicate n c) k * (1 / (n : ℝ) / 1), 1 / bins⟩ :=
    ⟨_, rfl⟩
  have hw : (1 : ℝ) / bins ≠ 0 := one_div_ne_zero hbp
  have hh : hist { n := n, bins := bins } (fun _ m => List.replicate m c) = .ok ((List.range bins).map mk) := by
    rw [hmk]
    simp only [hist, sample, Option.isNone_none, Bool.and_self, if_true, bars, he, if_neg hb, outer, List.length_replicate, sub_self, zero_div,
      ← ho, hwid, if_neg hw]
  refine ⟨_, hh, ?_⟩
  have harea : ∀ k, (mk k).area = count bins o (List.replicate n c) k * ((1 : ℝ) / n / bins) := by
    intro k
    rw [hmk]
    unfold Bar.area
    simp only
    ring
  rw [List.map_map, show Bar.area ∘ mk = fun k => (count bins o (List.replicate n c) k : ℝ) * ((1 : ℝ) / n / bins) from funext harea,
    List.sum_map_mul_right]
  have := count_sum (bins := bins) (o := o) (X := List.replicate n c) (by rw [ho]; simp only; linarith) (by
    intro x hx
    rw [List.eq_of_mem_replicate hx, ho]
    constructor <;> simp only <;> linarith) hb
  have h2 := congrArg (Nat.cast : ℕ → ℝ) this
  rw [Nat.cast_list_sum, List.map_map, List.length_replicate] at h2
  have h3 : (List.map (fun k => (count bins o (List.replicate n c) k : ℝ)) (List.range bins)).sum = n := h2
  rw [h3]
  field_simp

/-- draws that are negative once, then positive -/
private noncomputable def wit (k m : ℕ) : List ℝ := (List.range m).map fun i : ℕ => if k = 0 then 2 * i - 1 else 3 + i

/-- **C85, finding**: with a range the total area is the proportion of all draws that lie in the range, although the documentation
announces a conditional histogram, whose total area would be 1.  Here two of three values drawn are in the range. -/
theorem C85_finding_conditional : ∃ rand : ℕ → ℕ → List ℝ, (∀ k m, (rand k m).length = m) ∧
    sample { n := 2, xmin := some 0, bins := 2 } rand = ([1, 3], 3) ∧
    ∃ bs, hist { n := 2, xmin := some 0, bins := 2 } rand = .ok bs ∧ (bs.map Bar.area).sum = 2 / 3 := by
  have hs : sample { n := 2, xmin := some 0, bins := 2 } wit = ([1, 3], 3) := by
    have w0 : wit 0 2 = [-1, 1] := by norm_num [wit, List.range_succ]
    have w1 : wit 1 1 = [3] := by norm_num [wit]
    have k0 : keep { n := 2, xmin := some 0, bins := 2 } [-1, 1] = [1] := by norm_num [keep]
    have k1 : keep { n := 2, xmin := some 0, bins := 2 } [3] = [3] := by norm_num [keep]
    unfold sample
    rw [if_neg (by simp), show Args.limit { n := 2, xmin := some 0, bins := 2 } = 197 + 3 from rfl]
    rw [collect, if_pos (by decide)]
    simp only [List.length_nil, Nat.sub_zero, w0, k0, List.nil_append, List.length_cons, zero_add, Nat.reduceAdd]
    rw [collect, if_pos (by simp [Args.limit])]
    simp only [List.length_cons, List.length_nil, zero_add, Nat.reduceSub, w1, k1, List.cons_append, List.nil_append, Nat.reduceAdd]
    rw [collect, if_neg (by simp)]
  refine ⟨wit, by simp [wit], hs, ?_⟩
  have he : ends [1, 3] = some (1, 3) := by norm_num [ends]
  unfold hist
  rw [hs]
  simp only [bars, he, outer]
  norm_num [List.range_succ, edge, count, Bar.area]

/-- **C85**: without values there is no histogram, but an exception. -/
theorem C85_empty (A : Args) (all : ℕ) : bars A [] all = .error .value ∨ bars A [] all = .error .attribute := by
  unfold bars
  simp only [ends]
  split_ifs
  · exact .inr rfl
  · exact .inl rfl

/-- the hypotheses are met by a sample of different values -/
example : ∃ rand : ℕ → ℕ → List ℝ, (∀ k m, (rand k m).length = m) ∧ ∃ x ∈ rand 0 2, ∃ y ∈ rand 0 2, x ≠ y :=
  ⟨wit, by simp [wit], -1, by norm_num [wit, List.range_succ], 1, by norm_num [wit, List.range_succ], by norm_num⟩

end Hist
end Pacal
