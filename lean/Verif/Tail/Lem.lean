import Verif.Tail.Model
import Verif.Tail.Spec
import Mathlib.Tactic.Positivity
import Mathlib.Tactic.FieldSimp
import Mathlib.Tactic.Linarith

/-! Lemmas on the estimated exponents. -/

namespace Pacal
namespace Tail

open Real

theorem adj_last (g : ℝ → ℝ → ℝ) (l : List ℝ) (u v : ℝ) : (adj g (l ++ [u, v])).getLast? = some (g u v) := by
  unfold adj
  induction l with
  | nil => simp
  | cons a l ih =>
    obtain ⟨h, t, e⟩ : ∃ h t, l ++ [u, v] = h :: t := by
      cases l with
      | nil => exact ⟨_, _, rfl⟩
      | cons b l => exact ⟨_, _, rfl⟩
    have hne : t ≠ [] := by
      rintro rfl
      have := congrArg List.length e
      simp at this
    obtain ⟨h2, t2, rfl⟩ := List.exists_cons_of_ne_nil hne
    rw [e, List.tail_cons, List.dropLast_cons_cons, List.zipWith_cons_cons] at ih
    rw [List.cons_append, e, List.tail_cons, List.dropLast_cons_cons, List.zipWith_cons_cons,
      List.dropLast_cons_cons, List.zipWith_cons_cons, List.getLast?_cons_cons]
    exact ih

theorem logspace_split (a b : ℝ) (N : ℕ) : logspace a b (N + 2) =
    ((List.range N).map fun k : ℕ => (10 : ℝ) ^ (a + k * ((b - a) / ((N + 2 : ℕ) - 1)))) ++
      [(10 : ℝ) ^ (a + N * ((b - a) / ((N + 2 : ℕ) - 1))), (10 : ℝ) ^ b] := by
  unfold logspace
  rw [List.range_succ, List.range_succ, List.append_assoc, List.map_append]
  congr 1
  simp only [List.cons_append, List.nil_append, List.map_cons, List.map_nil]
  congr 3
  have : ((N : ℝ) + 1) ≠ 0 := by positivity
  push_cast
  rw [show (N : ℝ) + 2 - 1 = N + 1 by ring]
  field_simp
  ring

/-- the estimate is the slope between the last two sample points, if the function is finite and not zero
there -/
theorem tail_eq (f : ℝ → ℝ) (pos : Bool) {u v : ℝ} (hu : u = 10 ^ ((1 : ℝ) + 298 * (99 / 299)))
    (hv : v = 10 ^ (100 : ℝ)) (h1 : f (if pos then u else -u) ≠ 0) (h2 : f (if pos then v else -v) ≠ 0) :
    tailExponent f pos =
      let e := (log |f (if pos then v else -v)| - log |f (if pos then u else -u)|) / (99 / 299 * log 10)
      .ok (if e > 50 then .inf else .num e) := by
  classical
  have hs : logspace 1 100 300 = ((List.range 298).map fun k : ℕ =>
      (10 : ℝ) ^ ((1 : ℝ) + k * ((100 - 1) / ((298 + 2 : ℕ) - 1)))) ++ [u, v] := by
    rw [show (300 : ℕ) = 298 + 2 from rfl, logspace_split, hu, hv]
    norm_num
  have hl10 : (0 : ℝ) < log 10 := log_pos (by norm_num)
  have lu : log u = (1 + 298 * (99 / 299)) * log 10 := by rw [hu, log_rpow (by norm_num)]
  have lv : log v = 100 * log 10 := by rw [hv, log_rpow (by norm_num)]
  have hd : |log v - log u| = 99 / 299 * log 10 := by
    rw [lu, lv, ← sub_mul, abs_mul, abs_of_pos hl10]
    norm_num
  have hd' : |(-log v) - (-log u)| = 99 / 299 * log 10 := by
    rw [← hd, ← abs_neg]; congr 1; ring
  unfold tailExponent
  simp only [hs, List.map_append, List.map_cons, List.map_nil, List.filter_append]
  cases pos with
  | true =>
    simp only [if_true] at h1 h2 ⊢
    have e : (List.filter (fun p : ℝ × ℝ => decide (p.2 > 0)) [(log u, |f u|), (log v, |f v|)]) =
        [(log u, |f u|), (log v, |f v|)] := by
      rw [List.filter_cons_of_pos (by simp [h1]), List.filter_cons_of_pos (by simp [h2]), List.filter_nil]
    rw [e]
    simp only [List.map_append, List.map_cons, List.map_nil, lastRatio, adj_last, hd]
    rw [if_pos (by simp)]
    rfl
  | false =>
    simp only [Bool.false_eq_true, if_false] at h1 h2 ⊢
    have e : (List.filter (fun p : ℝ × ℝ => decide (p.2 > 0)) [(-log u, |f (-u)|), (-log v, |f (-v)|)]) =
        [(-log u, |f (-u)|), (-log v, |f (-v)|)] := by
      rw [List.filter_cons_of_pos (by simp [h1]), List.filter_cons_of_pos (by simp [h2]), List.filter_nil]
    rw [e]
    simp only [List.map_append, List.map_cons, List.map_nil, lastRatio, adj_last, hd']
    rw [if_pos (by simp)]
    rfl

/-- slope between two points of a function squeezed between multiples of a power -/
theorem slope_bound {m M α u v y z L : ℝ} (hm : 0 < m) (hu : 0 < u) (hv : 0 < v) (hL : 0 < L)
    (huv : log v - log u = L) (y1 : m * u ^ α ≤ y) (y2 : y ≤ M * u ^ α) (z1 : m * v ^ α ≤ z)
    (z2 : z ≤ M * v ^ α) : |(log z - log y) / L - α| ≤ log (M / m) / L := by
  have hua : 0 < u ^ α := rpow_pos_of_pos hu α
  have hva : 0 < v ^ α := rpow_pos_of_pos hv α
  have hM : 0 < M := by
    by_contra hc
    push Not at hc
    have := mul_nonpos_of_nonpos_of_nonneg hc hua.le
    have := mul_pos hm hua
    linarith
  have hy : 0 < y := lt_of_lt_of_le (mul_pos hm hua) y1
  have hz : 0 < z := lt_of_lt_of_le (mul_pos hm hva) z1
  have a1 := log_le_log (mul_pos hm hua) y1
  have a2 := log_le_log hy y2
  have a3 := log_le_log (mul_pos hm hva) z1
  have a4 := log_le_log hz z2
  rw [log_mul hm.ne' hua.ne', log_rpow hu] at a1
  rw [log_mul hM.ne' hua.ne', log_rpow hu] at a2
  rw [log_mul hm.ne' hva.ne', log_rpow hv] at a3
  rw [log_mul hM.ne' hva.ne', log_rpow hv] at a4
  have e : (log z - log y) / L - α = ((log z - log y) - α * L) / L := by field_simp
  rw [e, abs_div, abs_of_pos hL, log_div hM.ne' hm.ne']
  apply div_le_div_of_nonneg_right _ hL.le
  rw [abs_le, ← huv]
  constructor <;> nlinarith

theorem step_pos (x : ℝ) : 0 < step x := by
  have : (0 : ℝ) < log 10 := log_pos (by norm_num)
  unfold step
  split_ifs <;> positivity

/-- the estimate is the slope between the last two sample points -/
theorem degree_eq (f : ℝ → Option ℝ) (x : ℝ) (pos : Bool) {u v y z : ℝ}
    (hv : v = open Classical in if x = 0 then (10 : ℝ) ^ (-10 : ℝ) else (10 : ℝ) ^ (-7 : ℝ))
    (hu : u = v * exp (step x)) (h1 : f (if pos then x + u else x - u) = some y)
    (h2 : f (if pos then x + v else x - v) = some z) (hy : y ≠ 0) (hz : z ≠ 0) :
    degreeOfPole f x pos = .ok ((log |y| - log |z|) / step x) := by
  classical
  have hs : ∃ l, (if x = 0 then logspace (-1) (-10) 10 else logspace (-1) (-7) 10) = l ++ [u, v] := by
    by_cases hx : x = 0
    · refine ⟨_, (if_pos hx).trans ((logspace_split (-1) (-10) 8).trans (congrArg₂ (· ++ ·) rfl ?_))⟩
      rw [hu, hv, step, if_pos hx, if_pos hx, exp_log (by norm_num)]
      congr 1
      rw [show (10 : ℝ) ^ (-10 : ℝ) * 10 = (10 : ℝ) ^ (-10 : ℝ) * (10 : ℝ) ^ (1 : ℝ) by rw [rpow_one],
        ← rpow_add (by norm_num)]
      norm_num
    · refine ⟨_, (if_neg hx).trans ((logspace_split (-1) (-7) 8).trans (congrArg₂ (· ++ ·) rfl ?_))⟩
      rw [hu, hv, step, if_neg hx, if_neg hx]
      congr 1
      rw [show exp (2 / 3 * log 10) = (10 : ℝ) ^ (2 / 3 : ℝ) by
          rw [rpow_def_of_pos (by norm_num)]; congr 1; ring, ← rpow_add (by norm_num)]
      norm_num
  obtain ⟨l, hl⟩ := hs
  have hv0 : 0 < v := by rw [hv]; split_ifs <;> positivity
  have hu0 : 0 < u := by rw [hu]; positivity
  have lu : log u = log v + step x := by rw [hu, log_mul hv0.ne' (exp_pos _).ne', log_exp]
  have hd : |log (|v|) - log (|u|)| = step x := by
    rw [abs_of_pos hv0, abs_of_pos hu0, lu, ← abs_neg]
    rw [show -(log v - (log v + step x)) = step x by ring, abs_of_pos (step_pos x)]
  unfold degreeOfPole
  simp only [hl, List.filterMap_append]
  have e : List.filterMap (sample f x pos) [u, v] = [(log |u|, log |y|), (log |v|, log |z|)] := by
    rw [List.filterMap_cons_some (b := (log |u|, log |y|)) (by simp [sample, h1, hy]),
      List.filterMap_cons_some (b := (log |v|, log |z|)) (by simp [sample, h2, hz]), List.filterMap_nil]
  rw [e]
  simp only [List.map_append, List.map_cons, List.map_nil, lastRatio, adj_last, hd]
  rw [if_pos (by simp)]

theorem tailStep_pos : 0 < tailStep := by
  have : (0 : ℝ) < log 10 := log_pos (by norm_num)
  unfold tailStep; positivity

/-- the last two points at which a tail is sampled -/
theorem points : ∃ u v : ℝ, u = 10 ^ ((1 : ℝ) + 298 * (99 / 299)) ∧ v = 10 ^ (100 : ℝ) ∧
    (10 : ℝ) ^ (99 : ℝ) ≤ u ∧ (10 : ℝ) ^ (99 : ℝ) ≤ v ∧ u ≤ v ∧ log v - log u = tailStep := by
  refine ⟨_, _, rfl, rfl, rpow_le_rpow_of_exponent_le (by norm_num) (by norm_num),
    rpow_le_rpow_of_exponent_le (by norm_num) (by norm_num),
    rpow_le_rpow_of_exponent_le (by norm_num) (by norm_num), ?_⟩
  rw [log_rpow (by norm_num), log_rpow (by norm_num)]
  unfold tailStep; ring

theorem tail_bound {f : ℝ → ℝ} {pos : Bool} {m M α : ℝ} (hm : 0 < m) (hα : 0 ≤ α)
    (hM : log (M / m) / tailStep ≤ 50)
    (hf : ∀ x, (10 : ℝ) ^ (99 : ℝ) ≤ x → m * x ^ (-α) ≤ |f (if pos then x else -x)| ∧
      |f (if pos then x else -x)| ≤ M * x ^ (-α)) :
    ∃ e, tailExponent f pos = .ok (.num e) ∧ |e + α| ≤ log (M / m) / tailStep := by
  obtain ⟨u, v, hu, hv, u1, v1, -, hd⟩ := points
  have h0 : (0 : ℝ) < 10 ^ (99 : ℝ) := by positivity
  have hu0 := h0.trans_le u1
  have hv0 := h0.trans_le v1
  obtain ⟨y1, y2⟩ := hf u u1
  obtain ⟨z1, z2⟩ := hf v v1
  have hy := lt_of_lt_of_le (mul_pos hm (rpow_pos_of_pos hu0 (-α))) y1
  have hz := lt_of_lt_of_le (mul_pos hm (rpow_pos_of_pos hv0 (-α))) z1
  have hb := slope_bound hm hu0 hv0 tailStep_pos hd y1 y2 z1 z2
  rw [sub_neg_eq_add] at hb
  have hle := (abs_le.1 hb).2
  rw [tail_eq f pos hu hv (abs_pos.1 hy) (abs_pos.1 hz)]
  refine ⟨_, congrArg Except.ok (if_neg ?_), hb⟩
  push Not
  change _ ≤ _ at hle
  simp only [tailStep] at *
  linarith

theorem adj_length (g : ℝ → ℝ → ℝ) (l : List ℝ) : (adj g l).length = l.length - 1 := by
  simp [adj]

/-- with two points there is a last ratio -/
theorem lastRatio_ok (g h : ℝ → ℝ → ℝ) {l m : List ℝ} (hl : 1 < l.length) (hm : m.length = l.length) :
    ∃ e, lastRatio (adj g l) (adj h m) = .ok e := by
  have n1 : adj g l ≠ [] := by
    intro e; have := adj_length g l; rw [e] at this; simp at this; omega
  have n2 : adj h m ≠ [] := by
    intro e; have := adj_length h m; rw [e] at this; simp at this; omega
  unfold lastRatio
  rw [List.getLast?_eq_some_getLast n1, List.getLast?_eq_some_getLast n2]
  exact ⟨_, rfl⟩

/-- choosing between the last ratio and a default never fails -/
theorem choice_ok {α : Type} (g h : ℝ → ℝ → ℝ) (l m : List ℝ) (hm : m.length = l.length) (k : ℝ → α) (d : α) :
    ∃ e, (if 1 < l.length then (lastRatio (adj g l) (adj h m)).map k else .ok d) = .ok e := by
  by_cases hl : 1 < l.length
  · obtain ⟨e, he⟩ := lastRatio_ok g h hl hm
    rw [if_pos hl, he]
    exact ⟨_, rfl⟩
  · rw [if_neg hl]
    exact ⟨_, rfl⟩

theorem tailExponent_ok (f : ℝ → ℝ) (pos : Bool) (ft : ℝ × ℝ) (N : ℕ) : ∃ e, tailExponent f pos ft N = .ok e :=
  choice_ok _ _ _ _ (by rw [List.length_map, List.length_map]) _ _

theorem degreeOfPole_ok (f : ℝ → Option ℝ) (x : ℝ) (pos : Bool) (N : ℕ) : ∃ e, degreeOfPole f x pos N = .ok e := by
  classical
  obtain ⟨e, he⟩ := choice_ok (fun u v => u - v) (fun u v => |v - u|)
    (((if x = 0 then logspace (-1) (-10) N else logspace (-1) (-7) N).filterMap (sample f x pos)).map Prod.snd)
    (((if x = 0 then logspace (-1) (-10) N else logspace (-1) (-7) N).filterMap (sample f x pos)).map Prod.fst)
    (by rw [List.length_map, List.length_map]) id 0
  refine ⟨e, ?_⟩
  rw [← he]
  unfold degreeOfPole
  simp only [Except.map_id, id_eq]

theorem segTailexp_ok (s : Seg ℝ) : ∃ e, segTailexp s = .ok e := by
  cases s <;> exact tailExponent_ok ..

end Tail
end Pacal
