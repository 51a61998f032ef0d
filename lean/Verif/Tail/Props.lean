import Verif.Tail.Lem

/-! C77: tail exponents. C78: detection of poles. -/

namespace Pacal
namespace Tail

open Real

/-- **C77, right tail.** If beyond `10^99` the density lies between two multiples `m x^(-α)` and `M x^(-α)` of
a power, the right tail exponent that `tailexp()` reports differs from `-α` by at most
`log (M / m) / tailStep`. -/
theorem C77_right_partial (l : PF ℝ) (a : ℝ) (f : ℝ → ℝ) (ha : a ≤ 10 ^ (99 : ℝ)) {m M α : ℝ} (hm : 0 < m)
    (hα : 0 ≤ α) (hM : log (M / m) / tailStep ≤ 50)
    (hf : ∀ x, (10 : ℝ) ^ (99 : ℝ) ≤ x → m * x ^ (-α) ≤ |f x| ∧ |f x| ≤ M * x ^ (-α)) :
    ∃ e left, tailexp (l ++ [.pinf a f]) = .ok (left, some (.num e)) ∧
      |e + α| ≤ log (M / m) / tailStep := by
  have hc : ∀ x, (10 : ℝ) ^ (99 : ℝ) ≤ x → (Seg.pinf a f).call x = f x := by
    intro x hx
    change (if (Seg.pinf a f).lo ≤ Ext.fin x ∧ Ext.fin x ≤ (Seg.pinf a f).hi then f x else 0) = f x
    rw [if_pos]
    · refine ⟨?_, ?_⟩
      · change Ext.fin a ≤ Ext.fin x
        exact WithBot.coe_le_coe.2 (WithTop.coe_le_coe.2 (ha.trans hx))
      · exact WithBot.coe_le_coe.2 le_top
  obtain ⟨e, he, hb⟩ := tail_bound (f := (Seg.pinf a f).call) (pos := true) hm hα hM (by
    intro x hx
    simp only [if_true]
    rw [hc x hx]
    exact hf x hx)
  obtain ⟨s, hs⟩ : ∃ s, (l ++ [Seg.pinf a f]).head? = some s := by
    cases l <;> exact ⟨_, rfl⟩
  obtain ⟨m, hm'⟩ := segTailexp_ok s
  refine ⟨e, if isMInf s then some m else none, ?_, hb⟩
  unfold tailexp
  rw [hs, List.getLast?_concat]
  have he' : segTailexp (Seg.pinf a f) = .ok (.num e) := he
  simp only [isPInf, if_true, he', hm']
  cases isMInf s <;> rfl

/-- **C77, left tail.** The same for the left tail. -/
theorem C77_left_partial (l : PF ℝ) (b : ℝ) (f : ℝ → ℝ) {m M α : ℝ} (hm : 0 < m)
    (hα : 0 ≤ α) (hM : log (M / m) / tailStep ≤ 50)
    (hf : ∀ x, (10 : ℝ) ^ (99 : ℝ) ≤ x → m * x ^ (-α) ≤ |f (-x)| ∧ |f (-x)| ≤ M * x ^ (-α)) :
    ∃ e right, tailexp (.minf b f :: l) = .ok (some (.num e), right) ∧
      |e + α| ≤ log (M / m) / tailStep := by
  obtain ⟨e, he, hb⟩ := tail_bound (f := f) (pos := false) hm hα hM (by
    intro x hx
    simp only [Bool.false_eq_true, if_false]
    exact hf x hx)
  obtain ⟨s, hs⟩ : ∃ s, (Seg.minf b f :: l).getLast? = some s :=
    ⟨_, List.getLast?_eq_some_getLast (List.cons_ne_nil _ _)⟩
  obtain ⟨m, hm'⟩ := segTailexp_ok s
  refine ⟨e, if isPInf s then some m else none, ?_, hb⟩
  unfold tailexp
  rw [hs, List.head?_cons]
  have he' : segTailexp (Seg.minf b f) = .ok (.num e) := he
  simp only [isMInf, if_true, he', hm']
  cases isPInf s <;> rfl

/-- **C77, exact.** For a density that is exactly `c x^(-α)` (on the right) the exponent is exactly `-α`;
without an unbounded piece the answer is `None`. -/
theorem C77_exact (l : PF ℝ) (a : ℝ) (f : ℝ → ℝ) (ha : a ≤ 10 ^ (99 : ℝ)) {c α : ℝ} (hc : 0 < c)
    (hα : 0 ≤ α) (hf : ∀ x, (10 : ℝ) ^ (99 : ℝ) ≤ x → f x = c * x ^ (-α)) :
    ∃ left, tailexp (l ++ [.pinf a f]) = .ok (left, some (.num (-α))) := by
  obtain ⟨e, left, h1, h2⟩ := C77_right_partial l a f ha hc hα (M := c)
    (by rw [div_self hc.ne', log_one, zero_div]; norm_num) (by
      intro x hx
      have hx0 : (0 : ℝ) < x := lt_of_lt_of_le (by positivity) hx
      rw [hf x hx, abs_of_pos (mul_pos hc (rpow_pos_of_pos hx0 _))]
      exact ⟨le_rfl, le_rfl⟩)
  rw [div_self hc.ne', log_one, zero_div] at h2
  have : e + α = 0 := abs_nonpos_iff.1 h2
  have e1 : e = -α := by linarith
  exact ⟨left, e1 ▸ h1⟩

/-- **C77, no tail.** A density whose first piece does not reach to `-∞` and whose last does not reach to `∞`
has no exponents. -/
theorem C77_none (s t : Seg ℝ) (l : PF ℝ) (hs : s.lo ≠ .ninf) (ht : t.hi ≠ .pinf) :
    tailexp (s :: (l ++ [t])) = .ok (none, none) ∧ (s.hi ≠ .pinf → tailexp [s] = .ok (none, none)) := by
  have h1 : isMInf s = false := by
    cases s <;> first | rfl | exact absurd rfl hs
  have h2 : ∀ t : Seg ℝ, t.hi ≠ .pinf → isPInf t = false := by
    intro t ht
    cases t <;> first | rfl | exact absurd rfl ht
  constructor
  · unfold tailexp
    rw [List.head?_cons, ← List.cons_append, List.getLast?_concat]
    simp only [h1, h2 t ht]
    rfl
  · intro hs'
    unfold tailexp
    simp only [List.head?_cons, List.getLast?_singleton, h1, h2 s hs']
    rfl

/-- **C77, no failure.** `tailexp()` never raises on a distribution with at least one piece, whatever its pieces. -/
theorem C77_total (l : PF ℝ) (hl : l ≠ []) : ∃ r, tailexp l = .ok r := by
  obtain ⟨s, hs⟩ : ∃ s, l.head? = some s := by
    cases l with
    | nil => exact absurd rfl hl
    | cons s l => exact ⟨s, rfl⟩
  obtain ⟨m, hm⟩ := segTailexp_ok s
  obtain ⟨p, hp⟩ := segTailexp_ok (l.getLast hl)
  unfold tailexp
  rw [hs, List.getLast?_eq_some_getLast hl]
  simp only [hm, hp]
  cases isMInf s <;> cases isPInf (l.getLast hl) <;> exact ⟨_, rfl⟩

/-- **C77, no points.** A right tail that vanishes beyond 10, except perhaps at one point, gets the exponent 0. -/
theorem C77_vanishing (f : ℝ → ℝ) (x₀ : ℝ) (hf : ∀ x, 10 ≤ x → x ≠ x₀ → f x = 0) :
    tailExponent f true = .ok (.num 0) := by
  classical
  unfold tailExponent
  simp only [if_true]
  refine if_neg (not_lt.2 ?_)
  rw [List.length_map]
  have hmem : ∀ e ∈ logspace 1 100 300, 10 ≤ e := by
    intro e he
    obtain ⟨k, -, rfl⟩ := List.mem_map.1 he
    calc (10 : ℝ) = 10 ^ (1 : ℝ) := (rpow_one _).symm
      _ ≤ _ := rpow_le_rpow_of_exponent_le (by norm_num) (by
        have : (0 : ℝ) ≤ k * ((100 - 1) / ((300 : ℕ) - 1)) := mul_nonneg k.cast_nonneg (by norm_num)
        linarith)
  have hnd : (logspace 1 100 300).Nodup := by
    refine List.Nodup.map_on ?_ List.nodup_range
    intro i _ j _ h
    have h' := congrArg log h
    have hl : log (10 : ℝ) ≠ 0 := (log_pos (by norm_num)).ne'
    rw [log_rpow (by norm_num), log_rpow (by norm_num)] at h'
    replace h' := mul_right_cancel₀ hl h'
    norm_num at h'
    exact h'
  have hcount : (List.filter (fun e => decide (e = x₀)) (logspace 1 100 300)).length ≤ 1 := by
    rw [← List.countP_eq_length_filter]
    exact List.nodup_iff_count_le_one.1 hnd x₀
  rw [List.filter_map, List.length_map]
  refine le_trans (List.Sublist.length_le ?_) hcount
  rw [List.filter_congr (q := fun e => decide (e = x₀) && decide (|f e| > 0))]
  · rw [← List.filter_filter]
    exact List.filter_sublist.filter _
  · intro e he
    by_cases h : e = x₀
    · simp [h]
    · simp [h, hf e (hmem e he) h]

/-- **C77, finding.** A tail that does not increase is never reported with the exponent `np.inf`, however fast
it decreases: the comparison `ex > 50` (utils.py:489) looks for growth, while decreasing tails have negative
exponents. -/
theorem C77_finding_never_inf (f : ℝ → ℝ) (hpos : ∀ x, 0 < f x) (hanti : AntitoneOn f (Set.Ici (10 ^ (99 : ℝ)))) :
    ∃ e ≤ 0, tailExponent f true = .ok (.num e) := by
  obtain ⟨u, v, hu, hv, u1, v1, huv, hd⟩ := points
  rw [tail_eq f true hu hv (hpos _).ne' (hpos _).ne']
  have hle : f v ≤ f u := hanti u1 v1 huv
  have he : (log |f v| - log |f u|) / tailStep ≤ 0 := by
    apply div_nonpos_of_nonpos_of_nonneg _ tailStep_pos.le
    rw [abs_of_pos (hpos v), abs_of_pos (hpos u)]
    linarith [log_le_log (hpos v) hle]
  refine ⟨_, he, congrArg Except.ok (if_neg ?_)⟩
  simp only [if_true]
  push Not
  simp only [tailStep] at he
  linarith

/-- **C77, violated.** The exponential density decreases faster than any power, but the reported right
exponent is a finite number. -/
theorem C77_violated_light_tail :
    ∃ e : ℝ, tailexp [.pinf 0 fun x => exp (-x)] = .ok (none, some (.num e)) := by
  have hc : ∀ x, (0 : ℝ) ≤ x → (Seg.pinf 0 fun x => exp (-x)).call x = exp (-x) := by
    intro x hx
    change (if Ext.fin (0 : ℝ) ≤ Ext.fin x ∧ Ext.fin x ≤ Ext.pinf then exp (-x) else 0) = exp (-x)
    rw [if_pos]
    · exact ⟨WithBot.coe_le_coe.2 (WithTop.coe_le_coe.2 hx), WithBot.coe_le_coe.2 le_top⟩
  obtain ⟨u, v, hu, hv, u1, v1, huv, hd⟩ := points
  have h0 : (0 : ℝ) < 10 ^ (99 : ℝ) := by positivity
  have hu0 := h0.trans_le u1
  have hv0 := h0.trans_le v1
  have e1 := hc u hu0.le
  have e2 := hc v hv0.le
  have h := tail_eq (Seg.pinf 0 fun x => exp (-x)).call true hu hv
    (by simp only [if_true]; rw [e1]; exact (exp_pos _).ne')
    (by simp only [if_true]; rw [e2]; exact (exp_pos _).ne')
  simp only [if_true] at h
  rw [e1, e2, abs_of_pos (exp_pos _), abs_of_pos (exp_pos _), log_exp, log_exp, if_neg] at h
  · refine ⟨(-v - -u) / (99 / 299 * log 10), ?_⟩
    unfold tailexp
    simp only [List.head?_cons, List.getLast?_singleton, isMInf, isPInf, segTailexp, if_true, h]
    rfl
  · push Not
    have : (-v - -u) / tailStep ≤ 0 := div_nonpos_of_nonpos_of_nonneg (by linarith) tailStep_pos.le
    simp only [tailStep] at this
    linarith

/-- non-vacuity: the Pareto density `2 x^(-3)` on `[1, ∞)` -/
example : ∃ left, tailexp ([] ++ [.pinf 1 fun x => 2 * x ^ (-3 : ℝ)]) = .ok (left, some (.num (-3))) :=
  C77_exact [] 1 _ (by rw [← rpow_zero (10 : ℝ)]; exact rpow_le_rpow_of_exponent_le (by norm_num) (by norm_num))
    (c := 2) (α := 3) (by norm_num) (by norm_num) fun x _ => rfl

/-! ### C78 -/

/-- **C78, estimate.** If close to `x` (within `10^-6`) on the tested side the function lies between two
multiples `m t^α`, `M t^α` of a power of the distance `t`, the estimated degree differs from `α` by at most
`log (M / m) / step x`, where `step 0 = log 10` and `step x = 2/3 log 10` elsewhere. -/
theorem C78_degree (f : ℝ → Option ℝ) (x : ℝ) (pos : Bool) {m M α : ℝ} (hm : 0 < m)
    (hf : ∀ t, 0 < t → t ≤ 10 ^ (-6 : ℝ) → ∃ y, f (if pos then x + t else x - t) = some y ∧
      m * t ^ α ≤ |y| ∧ |y| ≤ M * t ^ α) :
    ∃ deg, degreeOfPole f x pos = .ok deg ∧ |deg - α| ≤ log (M / m) / step x := by
  classical
  obtain ⟨v, hv⟩ : ∃ v : ℝ, v = if x = 0 then (10 : ℝ) ^ (-10 : ℝ) else (10 : ℝ) ^ (-7 : ℝ) := ⟨_, rfl⟩
  obtain ⟨u, hu⟩ : ∃ u : ℝ, u = v * exp (step x) := ⟨_, rfl⟩
  have hv0 : 0 < v := by rw [hv]; split_ifs <;> positivity
  have hu0 : 0 < u := by rw [hu]; positivity
  have hl : 0 < log (10 : ℝ) := log_pos (by norm_num)
  have hstep : exp (step x) ≤ 10 := by
    rw [← exp_log (show (0 : ℝ) < 10 by norm_num), exp_le_exp]
    unfold step
    split_ifs <;> linarith
  have hv6 : v * 10 ≤ 10 ^ (-6 : ℝ) := by
    have e : ∀ s : ℝ, (10 : ℝ) ^ s * 10 = 10 ^ (s + 1) := by
      intro s; rw [rpow_add_one (by norm_num)]
    rw [hv]
    split_ifs
    · rw [e]; exact rpow_le_rpow_of_exponent_le (by norm_num) (by norm_num)
    · rw [e]; exact rpow_le_rpow_of_exponent_le (by norm_num) (by norm_num)
  have hu6 : u ≤ 10 ^ (-6 : ℝ) := by
    rw [hu]; exact (mul_le_mul_of_nonneg_left hstep hv0.le).trans hv6
  have hv6' : v ≤ 10 ^ (-6 : ℝ) := by linarith
  obtain ⟨y, fy, y1, y2⟩ := hf u hu0 hu6
  obtain ⟨z, fz, z1, z2⟩ := hf v hv0 hv6'
  have hy := lt_of_lt_of_le (mul_pos hm (rpow_pos_of_pos hu0 α)) y1
  have hz := lt_of_lt_of_le (mul_pos hm (rpow_pos_of_pos hv0 α)) z1
  rw [degree_eq f x pos hv hu fy fz (abs_pos.1 hy) (abs_pos.1 hz)]
  refine ⟨_, rfl, slope_bound hm hv0 hu0 (step_pos x) ?_ z1 z2 y1 y2⟩
  rw [hu, log_mul hv0.ne' (exp_pos _).ne', log_exp]
  ring

/-- **C78, exact degree.** For a function `c t^α` of the distance `t` the degree is exactly `α`. -/
theorem C78_power (f : ℝ → Option ℝ) (x : ℝ) (pos : Bool) {c α : ℝ} (hc : c ≠ 0)
    (hf : ∀ t, 0 < t → t ≤ 10 ^ (-6 : ℝ) → f (if pos then x + t else x - t) = some (c * t ^ α)) :
    degreeOfPole f x pos = .ok α := by
  have hc' : 0 < |c| := abs_pos.2 hc
  obtain ⟨deg, hdeg, h⟩ := C78_degree f x pos (m := |c|) (M := |c|) (α := α) hc' (by
    intro t ht ht6
    refine ⟨_, hf t ht ht6, ?_⟩
    rw [abs_mul, abs_of_pos (rpow_pos_of_pos ht α)]
    exact ⟨le_rfl, le_rfl⟩)
  rw [div_self hc'.ne', log_one, zero_div] at h
  rw [hdeg, sub_eq_zero.1 (abs_nonpos_iff.1 h)]

/-- **C78, poles of powers.** With the default settings a function `c t^α` of the distance is reported as
singular exactly if `α ≤ -0.01` (a pole), or `0.01 ≤ α ≤ 0.99` or `1.01 ≤ α ≤ 1.99` (a pole of a derivative),
or `α > 2`; with `deriv = False` exactly if `α < -0.01`. -/
theorem C78_test_power_partial (f : ℝ → Option ℝ) (x : ℝ) (pos : Bool) {c α : ℝ} (hc : c ≠ 0)
    (hf : ∀ t, 0 < t → t ≤ 10 ^ (-6 : ℝ) → f (if pos then x + t else x - t) = some (c * t ^ α)) :
    (testPole f x pos = .ok true ↔ α ≤ -0.01 ∨ (0.01 ≤ α ∧ α ≤ 0.99) ∨ (1.01 ≤ α ∧ α ≤ 1.99) ∨ 2 < α) ∧
    (testPole f x pos (deriv := false) = .ok true ↔ α < -0.01) := by
  have hd := C78_power f x pos hc hf
  have he : |(-1e-2 : ℝ)| = 0.01 := by norm_num
  constructor
  · unfold testPole
    simp only [hd, he, if_true, Except.map, Except.ok.injEq]
    split_ifs with h
    · simp only [true_iff]
      rcases h with ⟨h1, h2⟩ | ⟨h1, h2⟩ | h
      · rcases le_abs.1 h1 with h1 | h1
        · exact .inr (.inl ⟨h1, by linarith⟩)
        · exact .inl (by linarith)
      · exact .inr (.inr (.inl ⟨by linarith, by linarith⟩))
      · exact .inr (.inr (.inr h))
    · simp only [Bool.false_eq_true, false_iff]
      intro hc
      apply h
      rcases hc with h1 | ⟨h1, h2⟩ | ⟨h1, h2⟩ | h1
      · exact .inl ⟨le_abs.2 (.inr (by linarith)), by linarith⟩
      · exact .inl ⟨le_abs.2 (.inl h1), by linarith⟩
      · exact .inr (.inl ⟨by linarith, by linarith⟩)
      · exact .inr (.inr h1)
  · unfold testPole
    simp only [hd, Bool.false_eq_true, if_false, Except.map, Except.ok.injEq]
    split_ifs with h
    · simp only [Bool.false_eq_true, false_iff, not_lt]
      norm_num at h ⊢; linarith
    · simp only [true_iff]
      norm_num at h ⊢; linarith

/-- **C78, poles are found.** A function that lies between `m t^α` and `M t^α`, with `α` below `-0.01` by more
than the uncertainty of the estimate, is reported, with and without the test of the derivative. -/
theorem C78_detected (f : ℝ → Option ℝ) (x : ℝ) (pos deriv : Bool) {m M α : ℝ} (hm : 0 < m)
    (hf : ∀ t, 0 < t → t ≤ 10 ^ (-6 : ℝ) → ∃ y, f (if pos then x + t else x - t) = some y ∧
      m * t ^ α ≤ |y| ∧ |y| ≤ M * t ^ α) (hα : α < -0.01 - log (M / m) / step x) :
    testPole f x pos (deriv := deriv) = .ok true := by
  obtain ⟨deg, hdeg, h⟩ := C78_degree f x pos hm hf
  replace h := (abs_le.1 h).2
  have hd : deg < -0.01 := by linarith
  have he : |(-1e-2 : ℝ)| = 0.01 := by norm_num
  unfold testPole
  simp only [he, hdeg, Except.map, Except.ok.injEq]
  cases deriv with
  | true =>
    rw [if_pos rfl, if_pos]
    exact .inl ⟨le_abs.2 (.inr (by linarith)), by linarith⟩
  | false =>
    rw [if_neg (by simp), if_neg]
    push Not
    norm_num at hd ⊢; linarith

/-- **C78, regular points are not reported.** If close to `x` the function stays between two positive bounds
whose ratio is close enough to 1, no pole is reported, with and without the test of the derivative. -/
theorem C78_regular (f : ℝ → Option ℝ) (x : ℝ) (pos deriv : Bool) {m M : ℝ} (hm : 0 < m)
    (hf : ∀ t, 0 < t → t ≤ 10 ^ (-6 : ℝ) → ∃ y, f (if pos then x + t else x - t) = some y ∧
      m ≤ |y| ∧ |y| ≤ M) (hM : log (M / m) / step x < 0.01) :
    testPole f x pos (deriv := deriv) = .ok false := by
  obtain ⟨deg, hdeg, h⟩ := C78_degree f x pos (α := 0) hm (by simpa using hf)
  rw [sub_zero] at h
  have hd : |deg| < 0.01 := lt_of_le_of_lt h hM
  have he : |(-1e-2 : ℝ)| = 0.01 := by norm_num
  obtain ⟨d1, d2⟩ := abs_lt.1 hd
  unfold testPole
  simp only [he, hdeg, Except.map, Except.ok.injEq]
  cases deriv with
  | true =>
    rw [if_pos rfl, if_neg]
    rintro (⟨h1, -⟩ | ⟨h1, -⟩ | h1) <;> linarith
  | false =>
    rw [if_neg (by simp), if_pos]
    norm_num at d1 ⊢; linarith

/-- **C78, no failure.** The test never raises; a function without finite nonzero values near the point is not
reported. -/
theorem C78_total (f : ℝ → Option ℝ) (x : ℝ) (pos deriv : Bool) :
    (∃ b, testPole f x pos (deriv := deriv) = .ok b) ∧
    ((∀ t, 0 < t → t ≤ 1 / 10 → ∀ y, f (if pos then x + t else x - t) = some y → y = 0) →
      testPole f x pos (deriv := deriv) = .ok false) := by
  classical
  constructor
  · obtain ⟨e, he⟩ := degreeOfPole_ok f x pos 10
    unfold testPole
    rw [he]
    exact ⟨_, rfl⟩
  · intro hf
    have hpt : ∀ b : ℝ, b ≤ -1 → ∀ e ∈ logspace (-1) b 10, sample f x pos e = none := by
      intro b hb e he
      obtain ⟨k, -, rfl⟩ := List.mem_map.1 he
      set e : ℝ := (10 : ℝ) ^ (-1 + (k : ℝ) * ((b - -1) / ((10 : ℕ) - 1))) with hE
      have e0 : 0 < e := by positivity
      have e1 : e ≤ 1 / 10 := by
        calc e ≤ (10 : ℝ) ^ (-1 : ℝ) := rpow_le_rpow_of_exponent_le (by norm_num) (by
              have : (k : ℝ) * ((b - -1) / ((10 : ℕ) - 1)) ≤ 0 :=
                mul_nonpos_of_nonneg_of_nonpos k.cast_nonneg (div_nonpos_of_nonpos_of_nonneg (by linarith) (by norm_num))
              linarith)
          _ = 1 / 10 := by norm_num [rpow_neg_one]
      unfold sample
      cases h : f (if pos then x + e else x - e) with
      | none => rfl
      | some y => rw [Option.bind_some, if_pos (hf e e0 e1 y h)]
    have hd : degreeOfPole f x pos = .ok 0 := by
      unfold degreeOfPole
      have e : (if x = 0 then logspace (-1) (-10) 10 else logspace (-1) (-7) 10).filterMap (sample f x pos) = [] := by
        rw [List.filterMap_eq_nil_iff]
        split_ifs
        · exact hpt _ (by norm_num)
        · exact hpt _ (by norm_num)
      simp only [e]
      rfl
    unfold testPole
    rw [hd]
    cases deriv <;> norm_num [Except.map]

/-- **C78, violated.** The cube, a polynomial, is reported as having a pole at 0 (on both sides) with the default
settings: the last case `deg > 2` (utils.py:298) has no exception for integers. -/
theorem C78_violated_cube : testPole (fun t => some (t ^ 3)) 0 true = .ok true ∧
    testPole (fun t => some (t ^ 3)) 0 false = .ok true := by
  constructor
  · refine (C78_test_power_partial (fun t => some (t ^ 3)) 0 true (c := 1) (α := 3) (by norm_num) ?_).1.2
      (.inr (.inr (.inr (by norm_num))))
    intro t _ _
    have : t ^ (3 : ℝ) = t ^ 3 := by exact_mod_cast rpow_natCast t 3
    rw [this]
    simp
  · refine (C78_test_power_partial (fun t => some (t ^ 3)) 0 false (c := -1) (α := 3) (by norm_num) ?_).1.2
      (.inr (.inr (.inr (by norm_num))))
    intro t _ _
    have : t ^ (3 : ℝ) = t ^ 3 := by exact_mod_cast rpow_natCast t 3
    rw [this]
    simp
    ring

/-- non-vacuity: the pole of the chi-square density with one degree of freedom is found -/
example : testPole (fun t => if t = 0 then none else some (t ^ (-1 / 2 : ℝ))) 0 true = .ok true := by
  refine (C78_test_power_partial _ 0 true (c := 1) (α := -1 / 2) (by norm_num) ?_).1.2 (.inl (by norm_num))
  intro t ht _
  simp [ht.ne']

/-- … and the constant is not taken for a pole -/
example : testPole (fun _ => some 3) 5 false = .ok false := by
  refine C78_regular _ 5 false true (m := 3) (M := 3) (by norm_num) (fun t _ _ => ⟨3, rfl, ?_, ?_⟩) ?_
  · norm_num
  · norm_num
  · rw [div_self (by norm_num), log_one, zero_div]; norm_num

end Tail
end Pacal
