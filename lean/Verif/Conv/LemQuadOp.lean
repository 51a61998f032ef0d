import Verif.Conv.LemQuadRun
import Verif.Conv.PropsSum
import Verif.Conv.PropsProd
import Verif.Conv.PropsDiv
import Verif.Conv.PropsMinMax

/-! Sums, products and quotients with errors in the integrals, compared with exact integrals (used for C92). -/

namespace Pacal
namespace Conv
open MeasureTheory Set Transform Breaks

variable {P : Par} {f g : PF ℝ} {ε : ℝ → ℝ}

/-- the same parameters with exact integration -/
noncomputable def exactPar (P : Par) : Par := { P with q := exactQuad, qp := ⟨0, 10, 6, 8⟩ }

theorem exactPar_exact (P : Par) : ExactQ (exactPar P).q (exactPar P).qp :=
  ⟨fun _ _ _ => rfl, rfl, by norm_num [exactPar], by norm_num [exactPar], by norm_num [exactPar]⟩

/-- the error of a pair: only integrals have errors -/
noncomputable def pairErr (ε : ℝ) (si sj : Seg ℝ) : ℝ := if si.isDirac = false ∧ sj.isDirac = false then ε else 0

theorem pairErr_nonneg {ε : ℝ} (hε : 0 ≤ ε) (si sj : Seg ℝ) : 0 ≤ pairErr ε si sj := by unfold pairErr; split_ifs <;> simp [hε]

theorem count_cons (s : Seg ℝ) (l : PF ℝ) : PF.count (s :: l) = (if s.isDirac = false then 1 else 0) + PF.count l := by
  unfold PF.count
  rw [List.filter_cons]
  cases s.isDirac
  · simp [add_comm]
  · simp

theorem count_sum (l : PF ℝ) (c : ℝ) : (l.map fun s => if s.isDirac = false then c else 0).sum = l.count * c := by
  induction l with
  | nil => simp [PF.count]
  | cons s l ih =>
    rw [List.map_cons, List.sum_cons, ih, count_cons]
    split_ifs <;> push_cast <;> ring

theorem sum2_pairErr (ε : ℝ) (f g : PF ℝ) : sum2 f g (pairErr ε) = f.count * g.count * ε := by
  have e : ∀ si : Seg ℝ, (g.map fun sj => pairErr ε si sj).sum = if si.isDirac = false then g.count * ε else 0 := by
    intro si
    split_ifs with h
    · rw [← count_sum]
      congr 1
      exact List.map_congr_left fun sj _ => by simp [pairErr, h]
    · refine List.sum_eq_zero fun y hy => ?_
      obtain ⟨sj, -, rfl⟩ := List.mem_map.1 hy
      simp [pairErr, h]
  unfold sum2
  simp only [e]
  rw [count_sum, mul_assoc]

theorem near_diracs {E : ℝ → ℝ} {d : PF ℝ} (h : ∀ s ∈ d, s.isDirac = true) : List.Forall₂ (Near E) d d := by
  refine List.forall₂_same.2 fun s hs => ?_
  have := h s hs
  cases s <;> first | exact .dirac _ _ | simp [Seg.isDirac] at this

theorem near_mass {E : ℝ → ℝ} {l l' : PF ℝ} (h : List.Forall₂ (Near E) l l') (x : ℝ) : PF.massAt l' x = PF.massAt l x := by
  induction h with
  | nil => rfl
  | cons h _ ih => rw [PF.massAt_cons, PF.massAt_cons, ih]; congr 1; cases h <;> rfl

theorem near_wf {E : ℝ → ℝ} {eps : ℝ} {l l' : PF ℝ} (h : List.Forall₂ (Near E) l l') (hw : PF.WF eps l) : PF.WF eps l' := by
  refine ⟨?_, ?_⟩
  · have h1 := hw.seg
    clear hw
    induction h with
    | nil => simp
    | cons h _ ih =>
      intro s hs
      rcases List.mem_cons.1 hs with rfl | hs
      · have := h1 _ (List.mem_cons_self ..)
        cases h <;> exact this
      · exact ih (fun t ht => h1 t (List.mem_cons_of_mem _ ht)) s hs
  · have h1 := hw.sorted
    clear hw
    induction h with
    | nil => exact .nil
    | @cons s s' l l' hs hl ih =>
      obtain ⟨w1, w2⟩ := List.pairwise_cons.1 h1
      refine List.pairwise_cons.2 ⟨fun t' ht' => ?_, ih w2⟩
      obtain ⟨i, hi, rfl⟩ := List.mem_iff_getElem.1 ht'
      have hlen := hl.length_eq
      have hn := (List.forall₂_iff_get.1 hl).2 i (by omega) hi
      simp only [List.get_eq_getElem] at hn
      have hlt := w1 _ (List.getElem_mem (by omega : i < l.length))
      refine ⟨by rw [hs.hi, hn.lo]; exact hlt.1, ?_⟩
      intro a m a' m' e1 e2
      refine hlt.2 a m a' m' ?_ ?_
      · rw [e1] at hs; cases hs; rfl
      · rw [e2] at hn; generalize l[i] = u at hn; cases hn; rfl

/-- the result of an operation with errors, from the exact one -/
theorem near_result {eps : ℝ} {f g l l' : PF ℝ} (hε : ∀ x, 0 ≤ ε x) (h : List.Forall₂ (Near fun x => sum2 f g (pairErr (ε x))) l l')
    (hw : PF.WF eps l) (hd : PF.Dens l) {μ : Measure ℝ} (hl : PF.law l = μ) {d : ℝ → ℝ} (hv : ∀ᵐ x, l.val x = d x) :
    PF.WF eps l' ∧ (∀ x, l'.massAt x = μ.real {x}) ∧ ∀ᵐ x, |l'.val x - d x| ≤ f.count * g.count * ε x := by
  refine ⟨near_wf h hw, fun x => by rw [near_mass h, ← law_singleton hd, hl], ?_⟩
  have h0 : ∀ x, 0 ≤ sum2 f g (pairErr (ε x)) := fun x => by have := hε x; rw [sum2_pairErr]; positivity
  filter_upwards [near_val h0 h hw.sorted, hv] with x h1 h2
  rw [← h2, ← sum2_pairErr]
  exact h1

/-! ### sums -/

theorem val_integral (si sj : Seg ℝ) (x : ℝ) : ∫ t, si.val t * sj.val (x - t) = cint si sj x := by
  refine integral_congr_ae ?_
  have hs := (Measure.measurePreserving_sub_left (volume : Measure ℝ) x).quasiMeasurePreserving.ae (den_ae sj)
  filter_upwards [den_ae si, hs] with t h1 h2
  rw [h1, h2]

theorem meets_points {si sj : Seg ℝ} (hwi : si.WF) (hwj : sj.WF) (hsi : si.isDirac = false) (hsj : sj.isDirac = false) {x : ℝ}
    (hm : Meets x si sj) : ∃ s ∈ si.points, ∃ t ∈ sj.points, s + t = x := by
  rw [points_of_not_dirac hsi, points_of_not_dirac hsj]
  obtain ⟨t, h1, h2⟩ := EReal.lt_iff_exists_real_btwn.1 (Lx_lt_Ux (lo_lt_hi hsi hwi) (lo_lt_hi hsj hwj) hm)
  refine ⟨t, ⟨(le_max_left _ _).trans_lt h1, h2.trans_le (min_le_left _ _)⟩, x - t, ?_, by ring⟩
  rw [mem_inner]
  exact ⟨(lt_sub_iff' _ _ _).2 (h2.trans_le (min_le_right _ _)), (sub_lt_iff' _ _ _).2 ((le_max_right _ _).trans_lt h1)⟩

theorem conv_near (h : SumArgs P f g) (hε : ∀ x, 0 ≤ ε x) (hf : PF.Dens f) (hg : PF.Dens g)
    (hq : ∀ si ∈ f, ∀ sj ∈ g, si.isDirac = false → sj.isDirac = false →
      ∀ᵐ x, (∃ s ∈ si.points, ∃ t ∈ sj.points, s + t = x) → Approx (ε x) (contSum P x si sj) (∫ t, si.val t * sj.val (x - t)))
    (pole : ℝ → ℝ → Pole) :
    NearO (fun x => sum2 f g (pairErr (ε x))) (conv (exactPar P) pole f g) (conv P pole f g) := by
  have hp := run_near (t := Meets) (h0 := pairSum (exactPar P)) (h := pairSum P) (f := f) (g := g) (brks := resBreaks P f g)
    (e := fun x => pairErr (ε x)) (fun x => pairErr_nonneg (hε x)) (by
      intro si hsi sj hsj
      have hs := pairSum_spec (exactPar_exact P) (h.fwf.seg si hsi) (h.gwf.seg sj hsj) (hf si hsi) (hg sj hsj)
      by_cases hc : si.isDirac = false ∧ sj.isDirac = false
      · filter_upwards [hs.eq, hq si hsi sj hsj hc.1 hc.2] with x h1 hap hm
        obtain ⟨w, h2, h3⟩ := hap (meets_points (h.fwf.seg si hsi) (h.gwf.seg sj hsj) hc.1 hc.2 hm)
        refine ⟨_, w, h1 hm, ?_, ?_⟩
        · rw [pairSum, if_pos hc, h2]
        · rw [pairErr, if_pos hc, pairK, if_pos hc, ← val_integral]; exact h3
      · filter_upwards [hs.eq] with x h1 hm
        refine ⟨_, pairK si sj x, h1 hm, ?_, ?_⟩
        · rw [← h1 hm, pairSum, pairSum, if_neg hc, if_neg hc]
        · simpa using pairErr_nonneg (hε x) si sj)
    (fun a b hab x hx si hsi sj hsj => h.same hab hx (mid_mem (infix_lt h.breaks.1 hab) (h.no_both a b hab)) hsi hsj) pole
  rw [runAt_sum, runAt_sum] at hp
  have h1 := near_addAll P.eps hp (l := []) (l' := []) .nil
  unfold conv
  rw [show (exactPar P).eps = P.eps from rfl, show (exactPar P).brkEps = P.brkEps from rfl]
  rw [show uniqueX P.brkEps (sumBreaks f g) = resBreaks P f g from rfl]
  revert h1
  rcases PF.addAll P.eps [] (pieces pole (sumAt (exactPar P) f g) (resBreaks P f g)) with _ | o <;>
    rcases PF.addAll P.eps [] (pieces pole (sumAt P f g) (resBreaks P f g)) with _ | o' <;> intro h1
  · trivial
  · exact h1.elim
  · exact h1.elim
  · rcases convdiracs P.eps (· + ·) f g with _ | d
    · trivial
    · exact near_addAll P.eps (near_diracs fun s hs => (List.mem_filter.1 hs).2) h1

/-! ### products -/

theorem val_integral_mul (si sj : Seg ℝ) {x : ℝ} (hx : x ≠ 0) :
    ∫ t, si.val t * sj.val (x / t) / |t| = fibreK (fun x t => x / t) (fun t => |t|⁻¹) (den si) (den sj) x := by
  refine integral_congr_ae ?_
  filter_upwards [den_ae si, (qmp_div hx).ae (den_ae sj)] with t h1 h2
  rw [h1, h2]
  ring

theorem zeroTimes_none (P : Par) {f : PF ℝ} (g : PF ℝ) (h : ∀ m, Seg.dirac 0 m ∉ f) : zeroTimes P f g = 0 := by
  unfold zeroTimes
  refine List.sum_eq_zero fun y hy => ?_
  obtain ⟨s, hs, rfl⟩ := List.mem_map.1 hy
  cases s <;> try rfl
  rename_i a m
  dsimp only
  rw [if_neg]
  rintro rfl
  exact h m hs

theorem convprod_near (h : ProdArgs P f g) (hε : ∀ x, 0 ≤ ε x) (hf : PF.Dens f) (hg : PF.Dens g) (hf0 : ∀ m, Seg.dirac 0 m ∉ f)
    (hg0 : ∀ m, Seg.dirac 0 m ∉ g)
    (hq : ∀ si ∈ cut3 f, ∀ sj ∈ cut3 g, si.isDirac = false → sj.isDirac = false →
      ∀ᵐ x, (∃ s ∈ si.points, ∃ t ∈ sj.points, s * t = x) → Approx (ε x) (contProd P x si sj) (∫ t, si.val t * sj.val (x / t) / |t|))
    (pole : ℝ → ℝ → Pole) :
    NearO (fun x => sum2 (cut3 f) (cut3 g) (pairErr (ε x))) (convprod (exactPar P) pole f g) (convprod P pole f g) := by
  have f3 := (cut3_law h.eps h.fwf hf).1
  have g3 := (cut3_law h.eps h.gwf hg).1
  have f2 := cut3_wf h.fwf
  have g2 := cut3_wf h.gwf
  have hp := run_near (t := TestMul) (h0 := pairProd (exactPar P)) (h := pairProd P) (f := cut3 f) (g := cut3 g) (brks := pBreaks P f g)
    (e := fun x => pairErr (ε x)) (fun x => pairErr_nonneg (hε x)) (by
      intro si hsi sj hsj
      have hs := pairProd_spec (exactPar_exact P) (f2.seg si hsi) (g2.seg sj hsj) (f3 si hsi) (g3 sj hsj) (cut3_cut h.fwf hsi) (cut3_cut h.gwf hsj)
      by_cases hc : si.isDirac = false ∧ sj.isDirac = false
      · filter_upwards [hs.eq, hq si hsi sj hsj hc.1 hc.2, ae_ne_real 0] with x h1 hap hx0 hm
        obtain ⟨w, h2, h3⟩ := hap (points_of_test (f2.seg si hsi) (g2.seg sj hsj) hm)
        refine ⟨_, w, h1 hm, ?_, ?_⟩
        · rw [pairProd, if_pos hc, h2]
        · rw [pairErr, if_pos hc, prodK, if_pos hc, ← val_integral_mul si sj hx0]; exact h3
      · filter_upwards [hs.eq] with x h1 hm
        refine ⟨_, prodK si sj x, h1 hm, ?_, ?_⟩
        · rw [← h1 hm, pairProd, pairProd, if_neg hc, if_neg hc]
        · simpa using pairErr_nonneg (hε x) si sj)
    (fun a b hab x hx si hsi sj hsj => h.same hab hx (mid_mem (infix_lt h.breaks.1 hab) (h.no_both a b hab)) hsi hsj) pole
  rw [runAt_prod, runAt_prod] at hp
  have h1 := near_addAll P.eps hp (l := []) (l' := []) .nil
  have z : ∀ Q, zeroAtom Q (cut3 f) (cut3 g) = none := by
    intro Q
    unfold zeroAtom
    rw [zeroTimes_none Q _ fun m hm => hf0 m ((cut3_dirac h.fwf).1 hm), zeroTimes_none Q _ fun m hm => hg0 m ((cut3_dirac h.gwf).1 hm)]
    simp
  unfold convprod
  rw [show (exactPar P).eps = P.eps from rfl, cut3_eq h.eps h.fwf, Option.bind_some, cut3_eq h.eps h.gwf, Option.bind_some, Option.bind_some, Option.bind_some]
  rw [show prodBreaks (exactPar P) (cut3 f) (cut3 g) = pBreaks P f g from rfl, show prodBreaks P (cut3 f) (cut3 g) = pBreaks P f g from rfl]
  split_ifs
  · trivial
  revert h1
  rcases PF.addAll P.eps [] (pieces pole (prodAt (exactPar P) (cut3 f) (cut3 g)) (pBreaks P f g)) with _ | o <;>
    rcases PF.addAll P.eps [] (pieces pole (prodAt P (cut3 f) (cut3 g)) (pBreaks P f g)) with _ | o' <;> intro h1
  · trivial
  · exact h1.elim
  · exact h1.elim
  rw [Option.bind_some, Option.bind_some]
  rcases convdiracs P.eps (· * ·) (cut3 f) (cut3 g) with _ | d
  · trivial
  have h2 := near_addAll P.eps (near_diracs (E := fun x => sum2 (cut3 f) (cut3 g) (pairErr (ε x))) (d := PF.diracs d)
    fun s hs => (List.mem_filter.1 hs).2) h1
  rw [Option.bind_some, Option.bind_some]
  revert h2
  rcases PF.addAll P.eps o (PF.diracs d) with _ | r <;> rcases PF.addAll P.eps o' (PF.diracs d) with _ | r' <;> intro h2
  · trivial
  · exact h2.elim
  · exact h2.elim
  have h3 : List.Forall₂ _ r r' := h2
  rw [Option.bind_some, Option.bind_some, z, z]
  by_cases hr : r = []
  · subst hr
    cases h3
    trivial
  · have hr' : r' ≠ [] := by rintro rfl; cases h3; exact hr rfl
    obtain ⟨s, e1, -⟩ := findSegment_some hr 0
    obtain ⟨s', e2, -⟩ := findSegment_some hr' 0
    rw [e1, e2, Option.bind_some, Option.bind_some]
    exact h3

/-! ### quotients -/

theorem val_integral_div (si sj : Seg ℝ) {x : ℝ} (hx : x ≠ 0) :
    ∫ t, si.val (x * t) * sj.val t * |t| = fibreK (fun x t => x * t) (fun t => |t|) (den sj) (den si) x := by
  refine integral_congr_ae ?_
  filter_upwards [den_ae sj, (qmp_mul hx).ae (den_ae si)] with t h1 h2
  rw [h1, h2]
  ring

theorem convdiv_near (h : DivArgs P f g) (hε : ∀ x, 0 ≤ ε x) (hf : PF.Dens f) (hg : PF.Dens g) (neg0 arr : Bool)
    (hq : ∀ si ∈ cutD f, ∀ sj ∈ cutD g, si.isDirac = false → sj.isDirac = false →
      ∀ᵐ x, (∃ s ∈ si.points, ∃ t ∈ sj.points, t ≠ 0 ∧ s / t = x) →
        Approx (ε x) (if arr && !decide (|x| < 1) then contDiv2 P x si sj else contDiv1 P x si sj) (∫ t, si.val (x * t) * sj.val t * |t|))
    (pole : ℝ → ℝ → Pole) :
    NearO (fun x => sum2 (cutD f) (cutD g) (pairErr (ε x))) (convdiv (exactPar P) neg0 arr pole f g) (convdiv P neg0 arr pole f g) := by
  have h0 : DivArgs (exactPar P) f g := ⟨⟨h.eps, h.fne, h.gne, h.fwf, h.gwf, h.apart, h.g0⟩, h.f0, h.flat⟩
  have f2 := cutD_wf h.fwf
  have g2 := cutD_wf h.gwf
  have hp := run_near (t := TestDiv) (h0 := funDiv (exactPar P) arr) (h := funDiv P arr) (f := cutD f) (g := cutD g) (brks := dBreaks P neg0 f g)
    (e := fun x => pairErr (ε x)) (fun x => pairErr_nonneg (hε x)) (by
      intro si hsi sj hsj
      have hs := h0.pair (exactPar_exact P) hf hg arr hsi hsj
      by_cases hc : si.isDirac = false ∧ sj.isDirac = false
      · filter_upwards [hs.eq, hq si hsi sj hsj hc.1 hc.2, ae_ne_real 0] with x h1 hap hx0 hm
        obtain ⟨w, h2, h3⟩ := hap (by
          obtain ⟨t, t1, t2, t3, -⟩ := testDiv_points hx0 (f2.seg si hsi) (g2.seg sj hsj) (cutD_side h.fwf hsi) (cutD_side h.gwf hsj) hm
          exact ⟨x * t, t2, t, t1, t3, mul_div_cancel_right₀ x t3⟩)
        refine ⟨_, w, h1 hm, ?_, ?_⟩
        · rw [funDiv, pairDiv, if_pos hc, h2]
        · rw [pairErr, if_pos hc, divK, if_pos hc, ← val_integral_div si sj hx0]; exact h3
      · filter_upwards [hs.eq] with x h1 hm
        refine ⟨_, divK si sj x, h1 hm, ?_, ?_⟩
        · rw [← h1 hm, funDiv, funDiv, pairDiv, pairDiv, if_neg hc, if_neg hc]
        · simpa using pairErr_nonneg (hε x) si sj)
    (fun a b hab x hx si hsi sj hsj => h.same hab hx (mid_mem (infix_lt (dBreaks_sorted ..) hab) (h.no_both neg0 a b hab)) hsi hsj) pole
  rw [runAt_div, runAt_div] at hp
  have h1 := near_addAll P.eps hp (l := []) (l' := []) .nil
  unfold convdiv
  rw [show (exactPar P).eps = P.eps from rfl, cutD_eq h.eps h.fne h.fwf, Option.bind_some, cutD_eq h.eps h.gne h.gwf, Option.bind_some, Option.bind_some, Option.bind_some]
  rw [show divBreaks (exactPar P) neg0 (cutD f) (cutD g) = dBreaks P neg0 f g from rfl,
    show divBreaks P neg0 (cutD f) (cutD g) = dBreaks P neg0 f g from rfl]
  split_ifs
  · trivial
  revert h1
  rcases PF.addAll P.eps [] (pieces pole (divAt (exactPar P) arr (cutD f) (cutD g)) (dBreaks P neg0 f g)) with _ | o <;>
    rcases PF.addAll P.eps [] (pieces pole (divAt P arr (cutD f) (cutD g)) (dBreaks P neg0 f g)) with _ | o' <;> intro h1
  · trivial
  · exact h1.elim
  · exact h1.elim
  rw [Option.bind_some, Option.bind_some]
  rcases convdiracsDiv P.eps (cutD f) (cutD g) with _ | d
  · trivial
  · exact near_addAll P.eps (near_diracs fun s hs => (List.mem_filter.1 hs).2) h1

end Conv
end Pacal
