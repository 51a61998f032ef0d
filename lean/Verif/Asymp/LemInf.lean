import Verif.Asymp.LemLog
import Mathlib.Topology.Algebra.Order.Field
import Mathlib.Analysis.SpecialFunctions.Pow.Continuity

/-! Helper lemmas: interpolators on half-lines. -/

namespace Pacal.Asymp
open Nodes Mon Transform Real Polynomial Set

theorem logI_none (s : Setting) (f : ℝ → ℝ) (a offset : ℝ) {b : ℝ} (h : findZero f a = .ok b) :
    logI s f a none offset = logI s f a (some b) offset := by
  unfold logI
  simp only [h]

/-- what is needed about the logarithmic interpolator -/
theorem logI_facts (s : Setting) (hs : 3 ≤ s.maxn) {f : ℝ → ℝ} {a b offset : ℝ} (ho : offset < 2 + max a 0) (hab : a < b)
    (hf : ∀ x ∈ Ico a b, 0 < f x) : ∃ i, logI s f a (some b) offset = .ok i ∧ i.origB = b ∧
      (∀ p ∈ i.nodes, p.1 ∈ Ico a b ∧ p.2 = f p.1 ∧ i.at p.1 = .ok (f p.1)) ∧ (a, f a) ∈ i.nodes ∧
      (∃ q : ℝ[X], q.degree < i.nodes.length ∧
        ∀ x ∈ Icc a b, i.at x = .ok (exp (q.eval (log (2 + x - min a 0 - offset))))) ∧ ∀ x, b < x → i.at x = .ok 0 := by
  obtain ⟨n, hn, h⟩ := logI_build s hs f a b offset
  refine ⟨_, h, rfl, ?_, ?_, ?_, ?_⟩
  · intro p hp
    obtain ⟨r, hr, rfl⟩ := List.mem_map.1 hp
    obtain ⟨u, hu, rfl⟩ := List.mem_map.1 hr
    have hm := logGrid_mem ho hab hn u hu
    have hpos := hf _ hm
    refine ⟨hm, ?_, ?_⟩
    · simp only []
      rw [abs_of_pos hpos, exp_log hpos]
    · rw [log_at (y := log |f (logXt (logOff a offset) u)|) hm.2.le ?_, abs_of_pos hpos, exp_log hpos]
      simp only [Poly.at]
      rw [logXtinv_xt]
      exact eval_node .noR _ _ hu
  · refine List.mem_map.2 ⟨_, List.mem_map.2 ⟨_, first_mem .noR (by simp) hn _ _, rfl⟩, ?_⟩
    have ha := hf a ⟨le_rfl, hab⟩
    simp only []
    rw [logXt_xtinv (logOff_pos ho le_rfl), abs_of_pos ha, exp_log ha]
  · obtain ⟨q, hd, _, he⟩ := eval_poly .noR hn (logXtinv_lt ho hab).ne (fun x => log |f (logXt (logOff a offset) x)|)
    refine ⟨q, ?_, fun x hx => ?_⟩
    · simpa [LogI.nodes, graph] using hd
    · have hr := log_at (i := ⟨a, b, logOff a offset, ⟨.noR, graph (fun x => log |f (logXt (logOff a offset) x)|)
        (grid .noR n (logXtinv (logOff a offset) a) (logXtinv (logOff a offset) b))⟩⟩) (x := x) hx.2
        (he (logXtinv (logOff a offset) x))
      rw [hr, logXtinv, logOff_eq, show 1 + (x - (min a 0 + offset - 1)) = 2 + x - min a 0 - offset by ring]
  · intro x hx
    unfold LogI.at
    rw [if_pos hx]

theorem recPVar_cont {L e : ℝ} (he : 0 < e) : ContinuousOn (recPVar L e) (Ici L) := by
  have h : ∀ x ∈ Ici L, recPVar L e x = (offset L / (x - L + offset L)) ^ (1 / e) := fun x hx => recPVar_eq hx
  refine ContinuousOn.congr ?_ h
  have hp := offset_pos L
  refine ContinuousOn.rpow_const ?_ fun x _ => .inr (by positivity)
  refine continuousOn_const.div (by fun_prop) fun x hx => ?_
  have : L ≤ x := hx
  linarith

theorem recPVar_tendsto {L e : ℝ} (he : 0 < e) : Filter.Tendsto (recPVar L e) Filter.atTop (nhds 0) := by
  have hp := offset_pos L
  have h1 : Filter.Tendsto (fun x : ℝ => offset L / (x - L + offset L)) Filter.atTop (nhds 0) := by
    apply Filter.Tendsto.const_div_atTop
    have := Filter.tendsto_atTop_add_const_right Filter.atTop (offset L - L) (Filter.tendsto_id (α := ℝ) (x := Filter.atTop))
    refine this.congr fun x => ?_
    simp only [id]; ring
  have h2 : Filter.Tendsto (fun x : ℝ => (offset L / (x - L + offset L)) ^ (1 / e)) Filter.atTop (nhds 0) := by
    have := h1.rpow_const (p := 1 / e) (.inr (by positivity))
    rwa [zero_rpow (by positivity)] at this
  refine h2.congr' ?_
  filter_upwards [Filter.eventually_ge_atTop L] with x hx
  exact (recPVar_eq hx).symm

theorem recP_inv_one (L e : ℝ) (U : Option ℝ) : (recP L e U).inv 1 = L := by
  simp [recP]

theorem pyMax_ok {ys : List ℝ} (h : ys ≠ []) : ∃ m, pyMax ys = .ok m := by
  cases ys with
  | nil => exact absurd rfl h
  | cons y ys => exact ⟨_, rfl⟩

theorem xVbMin_mem {maxY : ℝ} {pts : List (ℝ × ℝ)} (h : ∀ p ∈ pts, p.1 ∈ Icc (0 : ℝ) 1) : xVbMin maxY pts ∈ Icc (0 : ℝ) 1 := by
  unfold xVbMin
  split
  · rename_i p hp; exact h p (List.mem_of_find?_eq_some hp)
  · constructor <;> norm_num

/-- the node which stands for the finite end -/
theorem varI_last {L e : ℝ} (U : Option ℝ) (f : ℝ → ℝ) {n : ℕ} (hn : 3 ≤ n) :
    (L, f L) ∈ (⟨recP L e U, ⟨.full, graph (fun t => applyScalar (recP L e U) f t 0 false)
      (grid .full n (recP L e U).varMin (recP L e U).varMax)⟩⟩ : VarI).nodes := by
  have h1 : (1 : ℝ) ∉ (recP L e U).varInf := by cases U <;> simp [recP]
  unfold VarI.nodes
  refine List.mem_map.2 ⟨(1, f L), List.mem_filter.2 ⟨List.mem_map.2 ⟨1, last_mem .full (by simp) hn _ _, ?_⟩, ?_⟩, ?_⟩
  · beta_reduce; rw [apply_dom h1, recP_inv_one]
  · simpa using h1
  · simp [recP_inv_one]

/-- the node which stands for the bound `U` -/
theorem varI_first {L e U : ℝ} (he : 0 < e) (hU : L ≤ U) (f : ℝ → ℝ) {n : ℕ} (hn : 3 ≤ n) :
    (U, f U) ∈ (⟨recP L e (some U), ⟨.full, graph (fun t => applyScalar (recP L e (some U)) f t 0 false)
      (grid .full n (recP L e (some U)).varMin (recP L e (some U)).varMax)⟩⟩ : VarI).nodes := by
  have hi : (recP L e (some U)).inv (recPVar L e U) = U := recP_right (some U) he hU
  unfold VarI.nodes
  refine List.mem_map.2 ⟨(recPVar L e U, f U), List.mem_filter.2 ⟨List.mem_map.2 ⟨recPVar L e U,
    first_mem .full (by simp) hn _ _, ?_⟩, ?_⟩, ?_⟩
  · beta_reduce; rw [apply_dom (by simp [recP]), hi]
  · simp [recP]
  · simp [hi]

theorem findZero_facts (f : ℝ → ℝ) (a : ℝ) : ∃ b, findZero f a = .ok b ∧ a + 1e-5 < b ∧ b < a + 1e100 ∧
    (AntitoneOn f (Ici (a + 1e-5)) →
      (f (a + 1e100) ≤ 1e-120 → ∀ x, a + (b - a) * (1 + 1e-5) ≤ x → f x ≤ 1e-120) ∧
      (1e-150 ≤ f (a + 1e-5) → ∀ x, a + 1e-5 ≤ x → a + (x - a) * (1 + 1e-5) ≤ b → 1e-150 ≤ f x)) := by
  obtain ⟨lo, hi, h1, h2, h3, h4, h5, h6, h7⟩ := findZero_spec f a
  have h0 : 0 < lo := lt_of_lt_of_le (by norm_num) h1
  obtain ⟨m1, m2⟩ := logMid_between h0 h2
  refine ⟨_, h4, by linarith, by linarith, fun hanti => ⟨fun hend x hx => ?_, fun hstart x hx hxb => ?_⟩⟩
  · rw [add_sub_cancel_left] at hx
    have hm : logMid lo hi ≤ logMid lo hi * (1 + 1e-5) := le_mul_of_one_le_right (by linarith) (by norm_num)
    have hin : ∀ y, 1e-5 ≤ y → a + y ∈ Ici (a + 1e-5) := fun y hy => by simp only [mem_Ici]; linarith
    have hx' : x ∈ Ici (a + 1e-5) := by simp only [mem_Ici]; linarith
    rcases h7 with h | ⟨_, h⟩
    · have hle := (logMid_narrow h0 h2 h).1
      have hfx : f x ≤ f (a + hi) := hanti (hin hi (by linarith)) hx' (by linarith)
      rcases h5 with rfl | h5
      · exact hfx.trans hend
      · exact hfx.trans (h5.le.trans (by norm_num))
    · exact (hanti (hin _ (by linarith)) hx' (by linarith)).trans h
  · have hx0 : 0 < x - a := lt_of_lt_of_le (by norm_num) (show (1e-5 : ℝ) ≤ x - a by linarith)
    have hxm : x - a ≤ (x - a) * (1 + 1e-5) := le_mul_of_one_le_right hx0.le (by norm_num)
    have hin : ∀ y, 1e-5 ≤ y → a + y ∈ Ici (a + 1e-5) := fun y hy => by simp only [mem_Ici]; linarith
    have hx' : x ∈ Ici (a + 1e-5) := hx
    rcases h7 with h | ⟨h, _⟩
    · have hle := (logMid_narrow h0 h2 h).2
      have hxlo : x ≤ a + lo := by
        have : (x - a) * (1 + 1e-5) ≤ lo * (1 + 1e-5) := by linarith
        have := le_of_mul_le_mul_right this (by norm_num)
        linarith
      have hfx : f (a + lo) ≤ f x := hanti hx' (hin lo h1) hxlo
      rcases h6 with rfl | h6
      · exact hstart.trans hfx
      · exact (le_trans (by norm_num) h6.le).trans hfx
    · exact h.trans (hanti hx' (hin _ (by linarith)) (by linarith))

/-- `m` is where the change of variable puts the switch between the two parts -/
theorem pInfI_cases (si sa : Setting) (hsi : 3 ≤ si.maxn) {e : ℝ} (he : 0 < e) (f : ℝ → ℝ) (L : ℝ) :
    (∃ n, 3 ≤ n ∧ pInfI si sa e f L = .ok ⟨none, ⟨recP L e none, ⟨.full,
        graph (fun t => applyScalar (recP L e none) f t 0 false) (grid .full n 0 1)⟩⟩, none, none⟩) ∨
    (∃ m n, L ≤ m ∧ 3 ≤ n ∧ ∀ vl, logI sa f m none 1 = .ok vl → pInfI si sa e f L = .ok ⟨some m, ⟨recP L e (some m), ⟨.full,
        graph (fun t => applyScalar (recP L e (some m)) f t 0 false) (grid .full n (recPVar L e m) 1)⟩⟩, some vl, some vl.origB⟩) := by
  obtain ⟨n, hn, h⟩ := varI_build si hsi f (recP L e none)
  have hlen : 2 ≤ (grid .full n (recP L e none).varMin (recP L e none).varMax).length := grid_length .full hn _ _
  have hlen3 : (grid .full n (recP L e none).varMin (recP L e none).varMax).length = n := cheb_length (by omega) _ _
  obtain ⟨maxY, hmax⟩ := pyMax_ok (ys := ((graph (fun t => applyScalar (recP L e none) f t 0 false)
      (grid .full n (recP L e none).varMin (recP L e none).varMax)).drop 1).map Prod.snd) (by
    intro h0
    have := congrArg List.length h0
    simp [graph] at this
    omega)
  by_cases hy : maxY ≤ 1e-100
  · left
    refine ⟨n, hn, ?_⟩
    unfold pInfI
    simp only [bind, Except.bind, h, hmax]
    rw [if_pos hy]
    rfl
  · right
    have hx0 := xVbMin_mem (maxY := maxY) (pts := (graph (fun t => applyScalar (recP L e none) f t 0 false)
      (grid .full n (recP L e none).varMin (recP L e none).varMax)).drop 1) (by
      intro p hp
      obtain ⟨t, ht, rfl⟩ := List.mem_map.1 (List.mem_of_mem_drop hp)
      have := grid_mem .full (show 2 ≤ n by omega) _ _ t ht
      rwa [uIcc_of_le (by simp [recP])] at this)
    obtain ⟨t0, ht0⟩ : ∃ t0, t0 = max (1 / 1e6 : ℝ) (xVbMin maxY ((graph (fun t => applyScalar (recP L e none) f t 0 false)
      (grid .full n (recP L e none).varMin (recP L e none).varMax)).drop 1)) := ⟨_, rfl⟩
    have h1 : 0 < t0 := ht0 ▸ lt_of_lt_of_le (by norm_num) (le_max_left _ _)
    have h2 : t0 ≤ 1 := ht0 ▸ max_le (by norm_num) hx0.2
    have hm : L ≤ (recP L e none).inv t0 := (recP_left none he h1 h2).1
    obtain ⟨n', hn', h'⟩ := varI_build si hsi f (recP L e (some ((recP L e none).inv t0)))
    refine ⟨(recP L e none).inv t0, n', hm, hn', fun vl hvl => ?_⟩
    unfold pInfI
    simp only [bind, Except.bind, h, hmax]
    rw [if_neg hy]
    simp only [← ht0, h', hvl]
    rfl

end Pacal.Asymp
