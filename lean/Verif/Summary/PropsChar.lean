import Verif.Summary.LemChar
import Verif.Calc.Props
import Mathlib.Analysis.SpecialFunctions.Exp

/-!
C88: extrema found from the derivative.
-/

namespace Pacal.Summary
open Quantile Set Calc Polynomial Filter

variable {I : Type}

/-- C88, weaker than wanted: `max_()` and `min_()` of a function made of bounded pieces without poles that follow each other are
its largest and smallest value and points where it takes them, provided that all zeros of the derivatives are found.  (Wanted:
for every piecewise function.  See the violations below.) -/
theorem C88_extrema_partial {O : CharOps I} {eps : ℝ} {l : PF ℝ} (hw : PF.WF eps l) (hne : l ≠ [])
    (hch : List.IsChain (fun s t => s.hi = t.lo) l) (h : ∀ s ∈ l, ∃ a b, Plain s a b ∧ FindsCritical O s.fn a b) :
    (∃ m x, max_ O l = .ok (m, .fin x) ∧ IsGreatest (values l) m ∧ m ∈ valuesAt l x) ∧
    ∃ m x, min_ O l = .ok (m, .fin x) ∧ IsLeast (values l) m ∧ m ∈ valuesAt l x := by
  obtain ⟨mi, xi, h1, h2, h3, h4⟩ := points_ok hw hne hch h
  constructor
  · obtain ⟨m, x, k1, k2, k3⟩ := extremum_ok (lt := fun u v => u < v) (fun u v w h1 h2 => by linarith) (fun u => lt_irrefl u)
      h1 h2 h3
    refine ⟨m, x, k1, ⟨mem_iUnion.2 ⟨x, k2⟩, fun v hv => ?_⟩, k2⟩
    obtain ⟨y, hy, hvy⟩ := (h4 v hv).1
    exact hvy.trans (not_lt.1 (k3 y hy))
  · obtain ⟨m, x, k1, k2, k3⟩ := extremum_ok (lt := fun u v => v < u) (fun u v w h1 h2 => by linarith) (fun u => lt_irrefl u)
      h1 h2 h3
    refine ⟨m, x, k1, ⟨mem_iUnion.2 ⟨x, k2⟩, fun v hv => ?_⟩, k2⟩
    obtain ⟨y, hy, hvy⟩ := (h4 v hv).2
    exact (not_lt.1 (k3 y hy)).trans hvy

/-- a parabola followed by a constant -/
noncomputable def hump : PF ℝ := [.fin .none 0 2 (fun x => x * (2 - x)), .const 2 3 (1 / 2)]

/-- a calculus that reports the point 1 for functions vanishing at 0 and nothing for others -/
noncomputable def humpOps : CharOps (ℝ → ℝ) :=
  ⟨fun f _ _ => .ok f, fun f => open Classical in .ok (if f 0 = 0 then [1] else [])⟩

example : ∃ x, max_ humpOps hump = .ok (1, .fin x) := by
  have hw : PF.WF 0 hump := by
    refine ⟨fun s hs => ?_, ?_⟩
    · simp only [hump, List.mem_cons, List.not_mem_nil, or_false] at hs
      rcases hs with rfl | rfl <;> norm_num [Seg.WF]
    · simp [hump, Seg.LeftOf, Seg.hi, Seg.lo]
  obtain ⟨⟨m, x, h1, h2, -⟩, -⟩ := C88_extrema_partial (O := humpOps) hw (by simp [hump]) (by simp [hump, Seg.hi, Seg.lo]) (by
    intro s hs
    simp only [hump, List.mem_cons, List.not_mem_nil, or_false] at hs
    rcases hs with rfl | rfl
    · refine ⟨0, 2, Or.inl ⟨_, rfl⟩, ⟨by dsimp only [Seg.fn]; fun_prop, by dsimp only [Seg.fn]; fun_prop, ?_⟩⟩
      refine ⟨_, [1], rfl, by simp [humpOps, Seg.fn], by simp, Or.inr fun x _ hx => ?_⟩
      have : HasDerivAt (fun x : ℝ => x * (2 - x)) (1 * (2 - x) + x * (-1)) x :=
        (hasDerivAt_id x).mul ((hasDerivAt_id x).const_sub 2)
      simp only [Seg.fn, this.deriv] at hx
      simp only [List.mem_singleton]
      linarith
    · refine ⟨2, 3, Or.inr ⟨_, rfl⟩, ⟨by dsimp only [Seg.fn]; fun_prop, by dsimp only [Seg.fn]; fun_prop, ?_⟩⟩
      exact ⟨_, [], rfl, by simp [humpOps, Seg.fn], by simp, Or.inl fun x _ => by simp [Seg.fn]⟩)
  refine ⟨x, ?_⟩
  rw [h1]
  have e : m = 1 := by
    refine le_antisymm ?_ ?_
    · obtain ⟨y, s, hs, -, -, rfl⟩ := mem_iUnion.1 h2.1
      simp only [hump, List.mem_cons, List.not_mem_nil, or_false] at hs
      rcases hs with rfl | rfl
      · simp only [Seg.fn]; nlinarith [sq_nonneg (y - 1)]
      · simp only [Seg.fn]; norm_num
    · refine h2.2 (mem_iUnion.2 ⟨1, .fin .none 0 2 (fun x => x * (2 - x)), by simp [hump], ?_, ?_, by simp only [Seg.fn]; norm_num⟩)
      · exact ext_le.2 (by norm_num)
      · exact ext_le.2 (by norm_num)
  rw [e]

/-- two pieces with a gap between them -/
noncomputable def gapped : PF ℝ := [.fin .none 0 1 (fun _ => 0), .fin .none 2 3 (fun x => 5 - x)]

/-- a calculus that finds nothing -/
def noneFound : CharOps (ℝ → ℝ) := ⟨fun f _ _ => .ok f, fun _ => .ok []⟩

/-- `max_()` of a function that is `0` on `[0, 1]` and `5 - x` on `[2, 3]` returns the largest value 3 but the point 1, where
the function is 0: the list of break points has one entry more than the list of values expects.  All critical points (there
are none) were found. -/
theorem C88_violated_gap : PF.WF 0 gapped ∧ (∀ s ∈ gapped, ∃ a b, Plain s a b ∧ FindsCritical noneFound s.fn a b) ∧
    max_ noneFound gapped = .ok (3, .fin 1) ∧ valuesAt gapped 1 = {0} := by
  have e1 : PF.getBreaks gapped = [.fin 0, .fin 1, .fin 2, .fin 3] := by
    refine getBreaks_eq ?_ ?_
    · simp; norm_num
    · intro x
      rw [mem_getBreaks]
      simp only [gapped, List.mem_cons, List.not_mem_nil, or_false, exists_eq_or_imp, exists_eq_left, Seg.lo, Seg.hi]
      tauto
  refine ⟨?_, ?_, ?_, ?_⟩
  · refine ⟨fun s hs => ?_, ?_⟩
    · simp only [gapped, List.mem_cons, List.not_mem_nil, or_false] at hs
      rcases hs with rfl | rfl <;> norm_num [Seg.WF]
    · simp [gapped, Seg.LeftOf, Seg.hi, Seg.lo, ext_le]
  · intro s hs
    simp only [gapped, List.mem_cons, List.not_mem_nil, or_false] at hs
    rcases hs with rfl | rfl
    · exact ⟨0, 1, Or.inl ⟨_, rfl⟩, by dsimp only [Seg.fn]; fun_prop, by dsimp only [Seg.fn]; fun_prop,
        _, [], rfl, rfl, by simp, Or.inl fun x _ => by simp [Seg.fn]⟩
    · refine ⟨2, 3, Or.inl ⟨_, rfl⟩, by dsimp only [Seg.fn]; fun_prop, by dsimp only [Seg.fn]; fun_prop,
        _, [], rfl, rfl, by simp, Or.inr fun x _ hx => ?_⟩
      have : HasDerivAt (fun x : ℝ => 5 - x) (-1) x := (hasDerivAt_id x).const_sub 5
      simp only [Seg.fn, this.deriv] at hx
      norm_num at hx
  · have e2 : characteristicPoints noneFound gapped
        = .ok ([0, 3, 0, 2], [.fin 0, .fin 1, .fin 2, .fin 1, .fin 2, .fin 3]) := by
      unfold characteristicPoints
      rw [e1]
      simp [gapped, pfDiff, pfRoots, noneFound, Bind.bind, Except.bind, Seg.valLo, Seg.valHi]
      norm_num
    unfold max_ extremum
    rw [e2]
    simp [Bind.bind, Except.bind, best, bestFrom]
    norm_num
  · ext v
    simp only [valuesAt, gapped, List.mem_cons, List.not_mem_nil, or_false, exists_eq_or_imp, exists_eq_left, Seg.lo, Seg.hi,
      Seg.fn, ext_le, Set.mem_ofPred_eq, Set.mem_singleton_iff]
    norm_num
    exact eq_comm

/-- a distribution with the mass 1/4 at 0 and the density `1.5 * x` on `[0, 1]` -/
noncomputable def atomic : PF ℝ := [.dirac 0 (1 / 4), .fin .none 0 1 (fun x => 3 / 2 * x)]

/-- with an atom there are more values than points: `max_()` of a density with the mass 1/4 at 0 and `1.5 * x` on `[0, 1]` is
an `IndexError`, and the smallest of the listed values is attributed to the right end -/
theorem C88_violated_atom : max_ noneFound atomic = .error .index ∧ min_ noneFound atomic = .ok (0, .fin 1) := by
  have e1 : PF.getBreaks atomic = [.fin 0, .fin 1] := by
    refine getBreaks_eq ?_ ?_
    · simp [ext_lt]
    · intro x
      rw [mem_getBreaks]
      simp only [atomic, List.mem_cons, List.not_mem_nil, or_false, exists_eq_or_imp, exists_eq_left, Seg.lo, Seg.hi]
      tauto
  have e2 : characteristicPoints noneFound atomic = .ok ([1, 0, 1, 3 / 2], [.fin 0, .fin 1]) := by
    unfold characteristicPoints
    rw [e1]
    simp [atomic, pfDiff, pfRoots, noneFound, Bind.bind, Except.bind, Seg.valLo, Seg.valHi]
  unfold max_ min_ extremum
  rw [e2]
  constructor
  · simp [Bind.bind, Except.bind, best, bestFrom]
    norm_num
  · simp [Bind.bind, Except.bind, best, bestFrom]
    norm_num

/-- unbounded pieces are not differentiated: `max_()` of the density `x * exp(-x)` on `[0, inf]` is 0, found at 0 -/
theorem C88_violated_tail (O : CharOps I) : max_ O [.pinf 0 (fun x => x * Real.exp (-x))] = .ok (0, .fin 0) ∧
    Real.exp (-1) ∈ valuesAt [.pinf 0 (fun x => x * Real.exp (-x))] 1 ∧ 0 < Real.exp (-1) := by
  have ht : Seg.valHi (.pinf 0 (fun x => x * Real.exp (-x))) = 0 := by
    refine Tendsto.limUnder_eq ?_
    simpa using Real.tendsto_pow_mul_exp_neg_atTop_nhds_zero 1
  have e1 : PF.getBreaks [.pinf (0 : ℝ) (fun x => x * Real.exp (-x))] = [.fin 0, .pinf] := by
    refine getBreaks_eq ?_ ?_
    · simp only [List.pairwise_cons, List.mem_singleton, forall_eq, List.not_mem_nil, false_imp_iff, implies_true, and_true,
        List.Pairwise.nil]
      exact WithBot.coe_lt_coe.2 (WithTop.coe_lt_top _)
    · intro x
      rw [mem_getBreaks]
      simp only [List.mem_cons, List.not_mem_nil, or_false, exists_eq_left, Seg.lo, Seg.hi]
  refine ⟨?_, ⟨.pinf 0 (fun x => x * Real.exp (-x)), by simp, ?_, ?_, by simp [Seg.fn]⟩, Real.exp_pos _⟩
  · unfold max_ extremum characteristicPoints
    rw [e1]
    simp only [pfDiff, pfRoots, Bind.bind, Except.bind, List.map_cons, List.map_nil, ht]
    simp [Seg.valLo, best, bestFrom]
  · exact ext_le.2 (by norm_num)
  · exact (WithBot.coe_lt_coe.2 (WithTop.coe_lt_top _)).le

/-- C88: the function without pieces has no extrema: `max_()` and `min_()` are a `ValueError` -/
theorem C88_empty (O : CharOps I) : max_ O [] = .error .value ∧ min_ O [] = .error .value := ⟨rfl, rfl⟩

/-- In exact arithmetic the root finder works only if the derivative uses all of its nodes: `max_()` and `min_()` fail for every
function one of whose bounded pieces is a polynomial that is interpolated with at least two nodes more than its degree needs
(and at least three), for instance for every density with a constant piece. -/
theorem C88_finding_exact {eig : (m : ℕ) → Matrix (Fin m) (Fin m) ℝ → List ℂ} (he : Eigs eig) {tol : ℝ} (htol : 0 < tol)
    (N : (ℝ → ℝ) → ℝ → ℝ → ℕ) {l : PF ℝ} {s : Seg ℝ} (hs : s ∈ l) {a b : ℝ} (hab : a < b) (hp : Plain s a b) (p : ℝ[X])
    (hf : s.fn = fun x => p.eval x) (hn : 3 ≤ N s.fn a b) (hd : p.degree < ((N s.fn a b - 1 : ℕ) : WithBot ℕ)) :
    (∃ e, max_ (chebOps eig tol N) l = .error e) ∧ ∃ e, min_ (chebOps eig tol N) l = .error e := by
  have key : ∃ e, characteristicPoints (chebOps eig tol N) l = .error e := by
    have hI : (⟨Nodes.cheb (N s.fn a b) a b, (Nodes.cheb (N s.fn a b) a b).map s.fn, Nodes.chebWeights (N s.fn a b)⟩ : Bary)
        = sampled (N s.fn a b) a b p (Nodes.chebWeights (N s.fn a b)) := by rw [hf]; rfl
    obtain ⟨D, h1, h2⟩ := diff_roots_fail he htol hn hab p hd (Nodes.chebWeights (N s.fn a b))
    rw [← hI] at h1
    exact points_fail hs hp (O := chebOps eig tol N) h1 h2
  obtain ⟨e, h⟩ := key
  exact ⟨⟨e, by unfold max_ extremum; rw [h]; rfl⟩, ⟨e, by unfold min_ extremum; rw [h]; rfl⟩⟩

/-- the uniform density -/
example {eig : (m : ℕ) → Matrix (Fin m) (Fin m) ℝ → List ℂ} (he : Eigs eig) :
    ∃ e, max_ (chebOps eig 1 fun _ _ _ => 3) [.const 0 1 1] = .error e :=
  (C88_finding_exact he one_pos _ (s := .const 0 1 1) (a := 0) (b := 1) (by simp) one_pos (Or.inr ⟨1, rfl⟩) 1
    (by funext x; simp [Seg.fn]) le_rfl (by rw [degree_one]; norm_num)).1

end Pacal.Summary
