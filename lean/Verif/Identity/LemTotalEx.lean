import Verif.Identity.LemTotalExact
import Verif.Identity.PropsExact

/-! Lemmas for the example of C95: a quadrature with a relative error. -/

namespace Pacal.Identity
open MeasureTheory Set Conv

theorem conv_rel_dens {P : Par} {f g : PF ℝ} {c : ℝ} (hc : 0 ≤ c) (h : SumArgs P f g) (hP : ExactQ P.q P.qp) (hf : PF.Dens f) (hg : PF.Dens g)
    (hfc : ContPF f) (hgc : ContPF g) (pole : ℝ → ℝ → Pole) :
    ∃ r, conv (relPar c P) pole f g = some r ∧ PF.Dens r := by
  have hs := fun si hsi sj hsj => pairSum_spec hP (h.fwf.seg si hsi) (h.gwf.seg sj hsj) (hf si hsi) (hg sj hsj)
  obtain ⟨k1, k2, -⟩ := withDensity_sum2 f g (k := fun i j x => c * pairK i j x)
    (fun si hsi sj hsj => (hs si hsi sj hsj).nonneg.mono fun x hx => mul_nonneg hc hx) (fun si hsi sj hsj => (hs si hsi sj hsj).int.const_mul c)
  have heq := ae_pairs fun si hsi sj hsj => (hs si hsi sj hsj).eq
  have hz := ae_pairs fun si hsi sj hsj => (hs si hsi sj hsj).zero
  obtain ⟨r, r1, -, r3, -⟩ := assemble h.eps (pole := pole) (F := runAt Meets (pairSum (relPar c P)) f g) k1 k2 h.breaks.1 h.no_both
    (by
      intro a b hab
      filter_upwards [heq, hz] with x h1 h2 hx
      have hsame := fun si hsi sj hsj => h.same hab hx (mid_mem (infix_lt h.breaks.1 hab) (h.no_both a b hab)) (si := si) (sj := sj) hsi hsj
      have hl : ∀ pr ∈ pairsBy (fun si sj => open Classical in decide (Meets (mid a b) si sj)) f g,
          pairSum (relPar c P) x pr.1 pr.2 = .ok (c * pairK pr.1 pr.2 x) := by
        intro pr hpr
        obtain ⟨p1, p2, p3⟩ := mem_pairsBy.1 hpr
        have := h1 _ p1 _ p2 ((hsame _ p1 _ p2).1 (by simpa using p3))
        rw [pairSum, if_pos ⟨hfc _ p1, hgc _ p2⟩] at this ⊢
        rw [contSum_scale, this]
        rfl
      rw [runAt, sumLoop_eq (k := fun i j => c * pairK i j x) _ _ hl, zero_add, sum_pairsBy (k := fun i j => c * pairK i j x)]
      · rfl
      · intro si hsi sj hsj ht
        show c * _ = 0
        rw [h2 si hsi sj hsj fun hc => by simpa [(hsame si hsi sj hsj).2 hc] using ht, mul_zero])
    (by
      filter_upwards [hz] with x h2 hx
      by_contra hc
      refine hx ?_
      unfold sum2
      refine List.sum_eq_zero fun y hy => ?_
      obtain ⟨si, hsi, rfl⟩ := List.mem_map.1 hy
      refine List.sum_eq_zero fun y hy => ?_
      obtain ⟨sj, hsj, rfl⟩ := List.mem_map.1 hy
      show c * _ = 0
      rw [h2 si hsi sj hsj fun ht => hc (h.out hsi hsj ht), mul_zero])
    (D := []) (by simp) .nil
  refine ⟨r, ?_, r3⟩
  rw [List.append_nil, runAt_sum] at r1
  rw [conv, show uniqueX (relPar c P).brkEps (sumBreaks f g) = resBreaks P f g from rfl, show (relPar c P).eps = P.eps from rfl, r1,
    Option.bind_some, convdiracs_none _ _ _ hgc]
  rfl

theorem near_self {E : ℝ → ℝ} {s t : Seg ℝ} (h : Near E s t) : Near (fun _ => 0) t t := by
  cases h with
  | fin p a b f f' h => exact .fin p a b f' f' (.of_forall fun x _ => by simp)
  | minf b f f' h => exact .minf b f' f' (.of_forall fun x _ => by simp)
  | pinf b f f' h => exact .pinf b f' f' (.of_forall fun x _ => by simp)
  | dirac a m => exact .dirac a m

theorem near_self_all {E : ℝ → ℝ} : ∀ {l m : PF ℝ}, List.Forall₂ (Near E) l m → List.Forall₂ (Near fun _ => 0) m m
  | _, _, .nil => .nil
  | _, _, .cons h hl => .cons (near_self h) (near_self_all hl)

/-- the machine whose integrals are all too large by a thousandth -/
noncomputable def biased : Machine := { ideal with par := relPar (1001 / 1000) ideal.par }

theorem biased_ok : ArithmeticOK biased := ⟨le_rfl, rfl, le_rfl, fun _ _ => rfl⟩

/-- `exp(U(0, 1) + U(0, 1))` -/
noncomputable def twoU : Expr := .step .exp (.add (.dist (.uniform 0 1)) (.dist (.uniform 0 1)))

theorem twoU_defined (n : Bool) : Defined n twoU := by
  refine ⟨⟨⟨?_, ?_⟩, ⟨?_, ?_⟩, ?_, ?_⟩, ?_, ?_⟩ <;>
    norm_num [Standard.Kind.Valid, Exact, Gapless, Cont, StepOK]

theorem uniform_run (M : Machine) (h : 0 ≤ M.env.eps) : Expr.runWith M (fun _ l => l) (.dist (.uniform 0 1)) = some [.const 0 1 1] := by
  have : Standard.uniform M.env.eps 0 1 = some [Seg.const (0 : ℝ) 1 1] := by
    unfold Standard.uniform
    rw [if_neg (by norm_num), show (1 / (1 - 0) : ℝ) = 1 by norm_num]
    exact addAll_self h (l := [Seg.const (0 : ℝ) 1 1]) (single_wf one_pos)
  simp only [Expr.runWith, Standard.Kind.build, this]
  rfl

/-- only the sum has an error, of area 1/500 -/
noncomputable def sumError : Expr → ℝ
  | .add _ _ => 1 / 500
  | _ => 0

theorem unit_noHole : PF.NoHole [Seg.const (0 : ℝ) 1 1] := by
  intro s hs
  refine .inl fun t ht => ?_
  rw [List.mem_singleton.1 hs, List.mem_singleton.1 ht]

theorem unit_args {P : Par} (h1 : P.eps = 0) (h2 : P.brkEps = 0) : SumArgs P [Seg.const (0 : ℝ) 1 1] [.const 0 1 1] :=
  ⟨h1.ge, h2.ge, by simp, by simp, single_wf one_pos, single_wf one_pos, unit_noHole, unit_noHole, by
    intro a _ b _ a' _ b' _ hne
    rw [h1, h2, max_self]
    exact abs_pos.2 (sub_ne_zero.2 hne)⟩

theorem biased_budget : Budget biased (fun _ l => l) sumError twoU := by
  refine ⟨⟨fun _ => rfl, fun _ => rfl, ?_⟩, fun _ => rfl⟩
  intro f g hf hg
  rw [uniform_run _ le_rfl] at hf hg
  obtain rfl := Option.some.inj hf
  obtain rfl := Option.some.inj hg
  have hd : PF.Dens [Seg.const (0 : ℝ) 1 1] := single_dens one_pos.le
  have hc : ContPF [Seg.const (0 : ℝ) 1 1] := single_cont
  have hb : ∀ x, 0 ≤ (Seg.const 0 1 (1 : ℝ)).val x ∧ (Seg.const 0 1 (1 : ℝ)).val x ≤ 1 := by
    intro x; rw [const_val]; split_ifs <;> norm_num
  have hi : ∫ x, (Seg.const 0 1 (1 : ℝ)).val x = 1 := by
    have hc := const_dens 0 1 (c := 1) (by norm_num)
    have := const_mass 0 1 (c := 1) (by norm_num) (by norm_num)
    rw [Seg.law_real rfl hc MeasurableSet.univ, setIntegral_univ] at this
    rw [this]; norm_num
  have hw : (Seg.const (0 : ℝ) 1 1).WF := by norm_num [Seg.WF]
  have hq : SumIntegrals biased.par (indicator (Icc 0 2) fun _ => 1 / 1000) [Seg.const (0 : ℝ) 1 1] [.const 0 1 1] := by
    intro s hs t ht h1 h2
    obtain rfl := List.mem_singleton.1 hs
    obtain rfl := List.mem_singleton.1 ht
    have := contSum_rel (c := 1001 / 1000) (P := ideal.par) exPar_exact hw hw (hd _ hs) (hd _ hs) rfl rfl hb fun x => (hb x).1
    rw [hi] at this
    filter_upwards [this] with x hx hp
    have hm : x ∈ Icc (0 : ℝ) 2 := by
      obtain ⟨u, hu, v, hv, rfl⟩ := hp
      obtain ⟨u1, u2⟩ := hu
      obtain ⟨v1, v2⟩ := hv
      simp only [Seg.lo, Seg.hi, Ext.fin_lt_fin] at u1 u2 v1 v2
      constructor <;> linarith
    rw [indicator_of_mem hm]
    refine approx_mono (hx hp) ?_
    norm_num [abs_of_pos]
  have h0 : ∀ x : ℝ, 0 ≤ indicator (Icc (0 : ℝ) 2) (fun _ => (1 / 1000 : ℝ)) x := fun x => indicator_nonneg (fun _ _ => by norm_num) x
  have ha : SumArgs ideal.par [Seg.const (0 : ℝ) 1 1] [.const 0 1 1] := unit_args rfl rfl
  obtain ⟨r, r1, r2⟩ := conv_rel_dens (c := 1001 / 1000) (by norm_num) ha exPar_exact hd hd hc hc biased.pole
  refine ⟨_, fun _ => 0, hq, fun x => ⟨h0 x, le_rfl⟩, ⟨(integrable_indicator_iff measurableSet_Icc).2 (integrableOn_const (by simp)), integrable_zero _ _ _⟩, ?_, ?_, ?_⟩
  · intro l hl
    have hn := conv_near (P := biased.par) (unit_args rfl rfl) h0 hd hd hq biased.pole
    rw [hl] at hn
    rcases e0 : conv (exactPar biased.par) biased.pole [Seg.const (0 : ℝ) 1 1] [.const 0 1 1] with _ | l₀
    · rw [e0] at hn; exact hn.elim
    · rw [e0] at hn; exact near_self_all hn
  · intro l hl
    obtain rfl := Option.some.inj (r1.symm.trans hl)
    exact r2
  · rw [integral_indicator measurableSet_Icc]
    simp [PF.count, Seg.isDirac, sumError]
    norm_num

end Pacal.Identity
