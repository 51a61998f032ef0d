import Verif.Conv.LemQuadEx

/-!
# Property C92: the errors of the integrals add up

`f.count` is the number of continuous pieces of `f`, `Approx ε r v` says that `r` is a number that differs from `v` by at most `ε`
(`Conv/SpecQuad.lean`).  The error `ε x` may depend on the point `x` at which the density is computed.  `contSum`, `contProd`, `contDiv1`, `contDiv2`, `pairMin`, `pairMax` are the numerical integrals over a pair
of continuous pieces; nothing else is assumed of the quadrature and its parameters (`P.q`, `P.qp`).
-/

namespace Pacal
namespace Conv
open MeasureTheory Set Transform Breaks

variable {P : Par} {f g : PF ℝ} {ε : ℝ → ℝ}

/-- **C92, sums.**  If for every pair of continuous pieces the convolution integral is computed up to `ε x`, then the density of `X + Y`
is correct up to `ε x` times the number of pairs, and the pieces and the probabilities of single values are correct.  (Wanted: for all
arguments; the conditions `SumArgs` are those of C12.) -/
theorem C92_sum_partial (h : SumArgs P f g) (hε : ∀ x, 0 ≤ ε x) (hf : PF.Dens f) (hg : PF.Dens g)
    (hq : ∀ si ∈ f, ∀ sj ∈ g, si.isDirac = false → sj.isDirac = false →
      ∀ᵐ x, (∃ s ∈ si.points, ∃ t ∈ sj.points, s + t = x) → Approx (ε x) (contSum P x si sj) (∫ t, si.val t * sj.val (x - t)))
    (pole : ℝ → ℝ → Pole) :
    ∃ r, conv P pole f g = some r ∧ PF.WF P.eps r ∧ (∀ x, r.massAt x = (opLaw (· + ·) (PF.law f) (PF.law g)).real {x}) ∧
      ∀ᵐ x, |r.val x - sumDensity f g x| ≤ f.count * g.count * ε x := by
  have h0 : SumArgs (exactPar P) f g := ⟨h.eps, h.brk, h.fne, h.gne, h.fwf, h.gwf, h.fhole, h.ghole, h.apart⟩
  obtain ⟨l, l1, l2, l3, l4, l5⟩ := conv_spec h0 (exactPar_exact P) hf hg pole
  have hn := conv_near h hε hf hg hq pole
  rw [l1] at hn
  obtain ⟨r, r1, r2⟩ := hn.some
  refine ⟨r, r1, near_result hε r2 l2 l3 l4 ?_⟩
  filter_upwards [l5, sum2_pairK hf hg] with x h1 h2
  rw [h1, h2]

/-- **C92, differences** -/
theorem C92_sub_partial (hε : ∀ x, 0 ≤ ε x) (h1 : 0 ≤ P.eps) (h2 : 0 ≤ P.brkEps) (hf0 : f ≠ [])
    (hg0 : g ≠ []) (hf : PF.WF P.eps f) (hg : PF.WF P.eps g) (hfh : f.NoHole) (hgh : g.NoHoleRight)
    (hap : Apart (· - ·) (max P.brkEps P.eps) f g) (hfd : PF.Dens f) (hgd : PF.Dens g)
    {g' : PF ℝ} (hg' : g.copyShiftedAndScaled P.eps 0 (-1) = some g')
    (hq : ∀ si ∈ f, ∀ sj ∈ g', si.isDirac = false → sj.isDirac = false →
      ∀ᵐ x, (∃ s ∈ si.points, ∃ t ∈ sj.points, s + t = x) → Approx (ε x) (contSum P x si sj) (∫ t, si.val t * sj.val (x - t)))
    (pole : ℝ → ℝ → Pole) :
    ∃ r, sub P pole f g = some r ∧ PF.WF P.eps r ∧ (∀ x, r.massAt x = (opLaw (· - ·) (PF.law f) (PF.law g)).real {x}) ∧
      ∀ᵐ x, |r.val x - sumDensity f g' x| ≤ f.count * g'.count * ε x := by
  obtain ⟨g1, e1, e2, e3⟩ := reflect_perm h1 hg
  obtain ⟨g'', e4, -, e6, e7⟩ := C18_law_partial h1 (scale := -1) (by norm_num) 0 (by simpa using hg) hgd
  rw [shiftedScaled, if_pos (by norm_num), e1] at e4
  obtain rfl := Option.some.inj e4
  obtain rfl := Option.some.inj (hg'.symm.trans e1)
  have harg : SumArgs P f g' := ⟨h1, h2, hf0, by rintro rfl; exact hg0 (by simpa using e2), hf, e3, hfh, reflect_noHole e2 hgh, by
    intro a ha b hb a' ha' b' hb' hne
    have := hap a ha _ (reflect_ends e2 hb) a' ha' _ (reflect_ends e2 hb') (by simpa using hne)
    simpa using this⟩
  have := PF.law_finite hfd
  have := PF.law_finite hgd
  obtain ⟨r, r1, r2, r3, r4⟩ := C92_sum_partial harg hε hfd e6 hq pole
  refine ⟨r, ?_, r2, fun x => ?_, r4⟩
  · rw [sub, e1, Option.bind_some, r1]
  · rw [r3, e7, opLaw_neg]

/-- **C92, products.**  The integrals are those over the pairs of pieces after the split at -1, 0, 1.  (Wanted: for all arguments;
`ProdArgs` are the conditions of C13.  With an atom at 0 its probability is computed from integrals too, and has their error.) -/
theorem C92_prod_partial (h : ProdArgs P f g) (hε : ∀ x, 0 ≤ ε x) (hf : PF.Dens f) (hg : PF.Dens g) (hf0 : ∀ m, Seg.dirac 0 m ∉ f)
    (hg0 : ∀ m, Seg.dirac 0 m ∉ g)
    (hq : ∀ si ∈ cut3 f, ∀ sj ∈ cut3 g, si.isDirac = false → sj.isDirac = false →
      ∀ᵐ x, (∃ s ∈ si.points, ∃ t ∈ sj.points, s * t = x) → Approx (ε x) (contProd P x si sj) (∫ t, si.val t * sj.val (x / t) / |t|))
    (pole : ℝ → ℝ → Pole) :
    ∃ r, convprod P pole f g = some r ∧ PF.WF P.eps r ∧ (∀ x, r.massAt x = (opLaw (· * ·) (PF.law f) (PF.law g)).real {x}) ∧
      ∀ᵐ x, |r.val x - prodDensity f g x| ≤ (cut3 f).count * (cut3 g).count * ε x := by
  have h0 : ProdArgs (exactPar P) f g := ⟨h.eps, h.fne, h.gne, h.fwf, h.gwf, h.apart, h.alive⟩
  obtain ⟨l, l1, l2, l3, l4, l5⟩ := prod_spec h0 (exactPar_exact P) hf hg pole
  have hn := convprod_near h hε hf hg hf0 hg0 hq pole
  rw [l1] at hn
  obtain ⟨r, r1, r2⟩ := hn.some
  refine ⟨r, r1, near_result hε r2 l2 l3 l4 ?_⟩
  filter_upwards [l5, sum2_prodK (cut3_law h.eps h.fwf hf).1 (cut3_law h.eps h.gwf hg).1] with x h1 h2
  rw [h1, h2, prodDensity_cut h.eps h.fwf h.gwf hf hg]

/-- **C92, quotients.**  `arr`: the density is evaluated at arrays of points, then the second formula is used where `|x| ≥ 1`. -/
theorem C92_div_partial (h : DivArgs P f g) (hε : ∀ x, 0 ≤ ε x) (hf : PF.Dens f) (hg : PF.Dens g) (neg0 arr : Bool)
    (hq : ∀ si ∈ cutD f, ∀ sj ∈ cutD g, si.isDirac = false → sj.isDirac = false →
      ∀ᵐ x, (∃ s ∈ si.points, ∃ t ∈ sj.points, t ≠ 0 ∧ s / t = x) →
        Approx (ε x) (if arr && !decide (|x| < 1) then contDiv2 P x si sj else contDiv1 P x si sj) (∫ t, si.val (x * t) * sj.val t * |t|))
    (pole : ℝ → ℝ → Pole) :
    ∃ r, convdiv P neg0 arr pole f g = some r ∧ PF.WF P.eps r ∧
      (∀ x, r.massAt x = (opLaw (· / ·) (PF.law f) (PF.law g)).real {x}) ∧
      ∀ᵐ x, |r.val x - divDensity f g x| ≤ (cutD f).count * (cutD g).count * ε x := by
  have h0 : DivArgs (exactPar P) f g := ⟨⟨h.eps, h.fne, h.gne, h.fwf, h.gwf, h.apart, h.g0⟩, h.f0, h.flat⟩
  obtain ⟨l, l1, l2, l3, l4, l5, -⟩ := div_spec h0 (exactPar_exact P) hf hg neg0 arr pole
  have hn := convdiv_near h hε hf hg neg0 arr hq pole
  rw [l1] at hn
  obtain ⟨r, r1, r2⟩ := hn.some
  refine ⟨r, r1, near_result hε r2 l2 l3 l4 ?_⟩
  filter_upwards [l5, sum2_divK (cutD_law h.eps h.fwf hf).1 (cutD_law h.eps h.gwf hg).1] with x h1 h2
  rw [h1, h2, divDensity_cut h.eps h.fwf h.gwf hf hg]

/-- **C92, minimum** of continuous distributions: the integrals are those over the pairs of pieces after each function is split at the
break points of the other one -/
theorem C92_min_partial (h : MMArgs P f g) (hε : ∀ x, 0 ≤ ε x) (hf : PF.Dens f) (hg : PF.Dens g) (hfa : ∀ s ∈ f, s.isDirac = false)
    (hga : ∀ s ∈ g, s.isDirac = false)
    (hq : ∀ si ∈ cutAt f g, ∀ sj ∈ cutAt g f,
      ∀ᵐ x, (∃ s ∈ si.points, ∃ t ∈ sj.points, min s t = x) → Approx (ε x) (pairMin P x si sj) (sj.val x * (si.law).real (Ioi x) + si.val x * (sj.law).real (Ioi x))) :
    ∃ r, convmin P f g = some r ∧ PF.WF P.eps r ∧ (∀ x, r.massAt x = (opLaw min (PF.law f) (PF.law g)).real {x}) ∧
      ∀ᵐ x, |r.val x - (f.val x * (PF.law g).real (Ioi x) + g.val x * (PF.law f).real (Ioi x))| ≤
        (cutAt f g).count * (cutAt g f).count * ε x := by
  have h0 : MMArgs (exactPar P) f g := ⟨h.eps, h.fne, h.gne, h.fwf, h.gwf, h.apart⟩
  obtain ⟨l, l1, l2, l3, l4, l5⟩ := mm_spec (opMin (exactPar_exact P)) h0 hf hg
  have hn := convMM_near (pair := pairMin P) (tail := fun h a => h.integrate P.q P.qp a ⊤) (opMin (exactPar_exact P)) h hε hf hg
    hfa hga (fun si hsi sj hsj => by
      have n1 := cutAt_cont h.fwf hfa si hsi
      have n2 := cutAt_cont h.gwf hga sj hsj
      filter_upwards [hq si hsi sj hsj] with x h1 ht
      exact h1 ((test_min_points (cutAt_wf h.fwf hsi) (cutAt_wf h.gwf hsj) (by rintro a m rfl; simp [Seg.isDirac] at n1)
        (by rintro a m rfl; simp [Seg.isDirac] at n2)).1 ht))
  rw [l1] at hn
  obtain ⟨r, r1, r2⟩ := hn.some
  obtain ⟨d1, m1, v1⟩ := cutAt_law (g := g) h.eps h.fwf hf
  obtain ⟨d2, m2, v2⟩ := cutAt_law (g := f) h.eps h.gwf hg
  refine ⟨r, r1, near_result hε r2 l2 l3 l4 ?_⟩
  filter_upwards [l5, sum2_tk d1 d2 Ioi] with x h1 h2
  rw [h1, h2, v1, v2, m1, m2, add_comm]

/-- **C92, maximum** of continuous distributions -/
theorem C92_max_partial (h : MMArgs P f g) (hε : ∀ x, 0 ≤ ε x) (hf : PF.Dens f) (hg : PF.Dens g) (hfa : ∀ s ∈ f, s.isDirac = false)
    (hga : ∀ s ∈ g, s.isDirac = false)
    (hq : ∀ si ∈ cutAt f g, ∀ sj ∈ cutAt g f,
      ∀ᵐ x, (∃ s ∈ si.points, ∃ t ∈ sj.points, max s t = x) → Approx (ε x) (pairMax P x si sj) (sj.val x * (si.law).real (Iio x) + si.val x * (sj.law).real (Iio x))) :
    ∃ r, convmax P f g = some r ∧ PF.WF P.eps r ∧ (∀ x, r.massAt x = (opLaw max (PF.law f) (PF.law g)).real {x}) ∧
      ∀ᵐ x, |r.val x - (f.val x * (PF.law g).real (Iio x) + g.val x * (PF.law f).real (Iio x))| ≤
        (cutAt f g).count * (cutAt g f).count * ε x := by
  have h0 : MMArgs (exactPar P) f g := ⟨h.eps, h.fne, h.gne, h.fwf, h.gwf, h.apart⟩
  obtain ⟨l, l1, l2, l3, l4, l5⟩ := mm_spec (opMax (exactPar_exact P)) h0 hf hg
  have hn := convMM_near (pair := pairMax P) (tail := fun h a => h.integrate P.q P.qp ⊥ a) (opMax (exactPar_exact P)) h hε hf hg
    hfa hga (fun si hsi sj hsj => by
      have n1 := cutAt_cont h.fwf hfa si hsi
      have n2 := cutAt_cont h.gwf hga sj hsj
      filter_upwards [hq si hsi sj hsj] with x h1 ht
      exact h1 ((test_max_points (cutAt_wf h.fwf hsi) (cutAt_wf h.gwf hsj) (by rintro a m rfl; simp [Seg.isDirac] at n1)
        (by rintro a m rfl; simp [Seg.isDirac] at n2)).1 ht))
  rw [l1] at hn
  obtain ⟨r, r1, r2⟩ := hn.some
  obtain ⟨d1, m1, v1⟩ := cutAt_law (g := g) h.eps h.fwf hf
  obtain ⟨d2, m2, v2⟩ := cutAt_law (g := f) h.eps h.gwf hg
  refine ⟨r, r1, near_result hε r2 l2 l3 l4 ?_⟩
  filter_upwards [l5, sum2_tk d1 d2 Iio] with x h1 h2
  rw [h1, h2, v1, v2, m1, m2, add_comm]

/-- **C92, probabilities.**  The probability of an interval computed from the density of the sum is correct up to the integral of `ε` over
the interval (its length, for a constant `ε`) times the number of pairs of pieces. -/
theorem C92_prob_partial (h : SumArgs P f g) (hε : ∀ x, 0 ≤ ε x) (hf : PF.Dens f) (hg : PF.Dens g)
    (hq : ∀ si ∈ f, ∀ sj ∈ g, si.isDirac = false → sj.isDirac = false →
      ∀ᵐ x, (∃ s ∈ si.points, ∃ t ∈ sj.points, s + t = x) → Approx (ε x) (contSum P x si sj) (∫ t, si.val t * sj.val (x - t)))
    (pole : ℝ → ℝ → Pole) :
    ∃ r, conv P pole f g = some r ∧ ∀ a b, a ≤ b → IntervalIntegrable (fun x => r.val x) volume a b →
      IntervalIntegrable ε volume a b →
      |(∫ x in a..b, r.val x) - ∫ x in a..b, sumDensity f g x| ≤ f.count * g.count * ∫ x in a..b, ε x := by
  obtain ⟨r, r1, -, -, r2⟩ := C92_sum_partial h hε hf hg hq pole
  have h0 : SumArgs (exactPar P) f g := ⟨h.eps, h.brk, h.fne, h.gne, h.fwf, h.gwf, h.fhole, h.ghole, h.apart⟩
  obtain ⟨l, l1, l2, l3, l4, l5⟩ := conv_spec h0 (exactPar_exact P) hf hg pole
  refine ⟨r, r1, fun a b hab hr he => ?_⟩
  have hs : Integrable (sumDensity f g) := by
    refine (PF.val_integrable l3).congr ?_
    filter_upwards [l5, sum2_pairK hf hg] with x h1 h2
    rw [h1, h2]
  rw [← intervalIntegral.integral_sub hr hs.intervalIntegrable]
  rw [← intervalIntegral.integral_const_mul]
  refine intervalIntegral.norm_integral_le_of_norm_le (f := fun x => r.val x - sumDensity f g x)
    (g := fun x => f.count * g.count * ε x) hab ?_ (he.const_mul _)
  filter_upwards [r2] with x hx _ using hx

/-! ### non-vacuity: a quadrature with a relative error of 0.1% -/

/-- the sum of two independent copies of a fair mixture of 0 and the uniform distribution on `[0, 1]` -/
example : ∃ r, conv (relPar (1001 / 1000) exPar) (fun _ _ => .none) halfAtom halfAtom = some r ∧
    ∀ᵐ x, |r.val x - sumDensity halfAtom halfAtom x| ≤ 1 / 4000 := by
  have ha := halfAtom_args
  have hb : ∀ x, 0 ≤ (Seg.const 0 1 (1 / 2 : ℝ)).val x ∧ (Seg.const 0 1 (1 / 2 : ℝ)).val x ≤ 1 / 2 := by
    intro x; rw [const_val]; split_ifs <;> norm_num
  have hi : ∫ x, (Seg.const 0 1 (1 / 2 : ℝ)).val x = 1 / 2 := by
    have hc := const_dens 0 1 (c := 1 / 2) (by norm_num)
    have := const_mass 0 1 (c := 1 / 2) (by norm_num) (by norm_num)
    rw [Seg.law_real rfl hc MeasurableSet.univ, setIntegral_univ] at this
    rw [this]; norm_num
  obtain ⟨r, r1, -, -, r4⟩ := C92_sum_partial (P := relPar (1001 / 1000) exPar) (ε := fun _ => 1 / 4000)
    ⟨ha.eps, ha.brk, ha.fne, ha.gne, ha.fwf, ha.gwf, ha.fhole, ha.ghole, ha.apart⟩ (by norm_num) halfAtom_dens halfAtom_dens (by
      intro si hsi sj hsj h1 h2
      have e : ∀ {s : Seg ℝ}, s ∈ halfAtom → s.isDirac = false → s = .const 0 1 (1 / 2) := by
        intro s hs h
        simp only [halfAtom, List.mem_cons, List.not_mem_nil, or_false] at hs
        rcases hs with rfl | rfl
        · simp [Seg.isDirac] at h
        · rfl
      obtain rfl := e hsi h1
      obtain rfl := e hsj h2
      have hd := const_dens 0 1 (c := 1 / 2) (by norm_num)
      have hw : (Seg.const (0 : ℝ) 1 (1 / 2)).WF := by norm_num [Seg.WF]
      have := contSum_rel (c := 1001 / 1000) exPar_exact hw hw hd hd rfl rfl hb fun x => (hb x).1
      rw [hi] at this
      filter_upwards [this] with x hx hp
      exact approx_mono (hx hp) (by norm_num [abs_of_pos])) fun _ _ => .none
  refine ⟨r, r1, ?_⟩
  · have e : (PF.count halfAtom : ℝ) = 1 := by simp [PF.count, halfAtom, Seg.isDirac]
    simpa [e] using r4

/-- the product of two independent variables, uniform on `[1, 2]` -/
example (pole : ℝ → ℝ → Pole) : ∃ r, convprod (relPar (1001 / 1000) exPar) pole [.const 1 2 1] [.const 1 2 1] = some r ∧
    ∀ᵐ x, |r.val x - prodDensity [.const 1 2 1] [.const 1 2 1] x| ≤
      (PF.count (cut3 [.const 1 2 1])) * (PF.count (cut3 [.const 1 2 1])) * (1 / 1000) := by
  have hd := single_dens (a := 1) (b := 2) (c := 1) (by norm_num)
  have hw : PF.WF exPar.eps [Seg.const (1 : ℝ) 2 1] := single_wf (by norm_num)
  have hn : ∀ m, Seg.dirac (0 : ℝ) m ∉ [Seg.const (1 : ℝ) 2 1] := by simp
  have hm : ∀ {x : ℝ}, x ∈ PF.marks [Seg.const (1 : ℝ) 2 1] → x = -1 ∨ x = 0 ∨ x = 1 ∨ x = 2 := by
    rintro x (⟨s, hs, h⟩ | h)
    · obtain rfl := List.mem_singleton.1 hs
      simp only [Seg.lo, Seg.hi, Breaks.fin_inj] at h
      rcases h with h | h
      · exact .inr (.inr (.inl h.symm))
      · exact .inr (.inr (.inr h.symm))
    · have : x = -1 ∨ x = 0 ∨ x = 1 := by simpa using h
      tauto
  have hl : PF.law [Seg.const (1 : ℝ) 2 1] {0}ᶜ ≠ 0 := by
    have e : PF.law [Seg.const (1 : ℝ) 2 1] = (Seg.const (1 : ℝ) 2 1).law := by simp [PF.law]
    intro h
    have := const_law_in 1 2 (c := 1) (by norm_num) (by norm_num) (A := {0}ᶜ) (measurableSet_singleton _).compl
      (fun x h1 _ => by simp; linarith)
    rw [Measure.real, ← e, h] at this
    norm_num at this
  have ha : ∀ c, ProdArgs (relPar c exPar) [Seg.const (1 : ℝ) 2 1] [Seg.const (1 : ℝ) 2 1] := fun c =>
    ⟨by norm_num [relPar, exPar], by simp, by simp, hw, hw, by
      intro a ha b hb a' ha' b' hb' hne
      rcases hm ha with rfl | rfl | rfl | rfl <;> rcases hm hb with rfl | rfl | rfl | rfl <;>
        rcases hm ha' with rfl | rfl | rfl | rfl <;> rcases hm hb' with rfl | rfl | rfl | rfl <;>
        first
        | (exfalso; apply hne; norm_num; done)
        | norm_num [relPar, exPar], .inl ⟨hl, hl⟩⟩
  have h1 : ProdArgs exPar [Seg.const (1 : ℝ) 2 1] [Seg.const (1 : ℝ) 2 1] :=
    ⟨(ha 1).eps, (ha 1).fne, (ha 1).gne, (ha 1).fwf, (ha 1).gwf, (ha 1).apart, (ha 1).alive⟩
  obtain ⟨r, r1, -, -, r4⟩ := C92_prod_partial (ha (1001 / 1000)) (ε := fun _ => 1 / 1000) (by norm_num) hd hd hn hn (by
      intro si hsi sj hsj d1 d2
      obtain ⟨b1, b2, b3⟩ := cut3_part (eps := 0) le_rfl (by norm_num) (by norm_num) hsi
      obtain ⟨c1, -, -⟩ := cut3_part (eps := 0) le_rfl (by norm_num) (by norm_num) hsj
      filter_upwards [contProd_rel (c := 1001 / 1000) h1 exPar_exact hd hd hsi hsj d1 d2 c1 (fun x => (b1 x).1) fun x hx => (b2 x hx).1]
        with x hx hp
      refine approx_mono (hx hp) ?_
      rw [show |(1001 / 1000 : ℝ) - 1| = 1 / 1000 by norm_num [abs_of_pos]]
      linarith) pole
  exact ⟨r, r1, r4⟩

/-- the quotient of two independent variables, uniform on `[-1, 1]` -/
example (neg0 arr : Bool) (pole : ℝ → ℝ → Pole) : ∃ r, convdiv (relPar (1001 / 1000) exPar) neg0 arr pole unif unif = some r ∧
    ∀ᵐ x, |r.val x - divDensity unif unif x| ≤ (cutD unif).count * (cutD unif).count * (1 / 2000) := by
  have hd : PF.Dens unif := single_dens (by norm_num)
  obtain ⟨r, r1, -, -, r4⟩ := C92_div_partial (P := relPar (1001 / 1000) exPar) (unif_args (by norm_num [relPar, exPar])
    (by norm_num [relPar, exPar])) (ε := fun _ => 1 / 2000) (by norm_num) hd hd neg0 arr (by
      intro si hsi sj hsj d1 d2
      obtain ⟨b1, -, -⟩ := cutD_part (eps := 0) le_rfl (by norm_num) (by norm_num) hsi
      obtain ⟨c1, c2, c3⟩ := cutD_part (eps := 0) le_rfl (by norm_num) (by norm_num) hsj
      filter_upwards [contDiv_rel (c := 1001 / 1000) (P := exPar) (unif_args (by norm_num [exPar]) (by norm_num [exPar])) exPar_exact
        hd hd hsi hsj d1 d2 b1 (fun x => (c1 x).1) (fun x hx => abs_le.2 ⟨(c2 x hx).1, (c2 x hx).2.le⟩) arr] with x hx hp
      refine approx_mono (hx hp) ?_
      rw [show |(1001 / 1000 : ℝ) - 1| = 1 / 1000 by norm_num [abs_of_pos]]
      linarith) pole
  exact ⟨r, r1, r4⟩

/-- minimum and maximum of two independent variables, uniform on `[0, 1]` and on `[1/2, 1]` -/
example : (∃ r, convmin (relPar (1001 / 1000) exPar) [.const 0 1 1] [.const (1 / 2) 1 2] = some r ∧ PF.WF exPar.eps r) ∧
    ∃ r, convmax (relPar (1001 / 1000) exPar) [.const 0 1 1] [.const (1 / 2) 1 2] = some r ∧ PF.WF exPar.eps r := by
  have d1 := single_dens (a := 0) (b := 1) (c := 1) (by norm_num)
  have d2 := single_dens (a := 1 / 2) (b := 1) (c := 2) (by norm_num)
  have ha : MMArgs (relPar (1001 / 1000) exPar) [.const 0 1 1] [.const (1 / 2) 1 2] :=
    ⟨by norm_num [relPar, exPar], by simp, by simp, single_wf (by norm_num), single_wf (by norm_num), by intro a m a' m' h; simp at h⟩
  have key : ∀ (T : ℝ → Set ℝ) (hT : ∀ x, MeasurableSet (T x)) (si sj : Seg ℝ), si ∈ cutAt [.const 0 1 1] [.const (1 / 2 : ℝ) 1 2] →
      sj ∈ cutAt [.const (1 / 2 : ℝ) 1 2] [.const 0 1 1] → ∀ x, si.isDirac = false ∧ sj.isDirac = false ∧
      0 ≤ sj.val x * (si.law).real (T x) + si.val x * (sj.law).real (T x) ∧
      sj.val x * (si.law).real (T x) + si.val x * (sj.law).real (T x) ≤ 3 := by
    intro T hT si sj hsi hsj x
    obtain ⟨b1, -, b3⟩ := cutAt_part (eps := 0) le_rfl (by norm_num) (by norm_num) hsi
    obtain ⟨c1, -, c3⟩ := cutAt_part (eps := 0) le_rfl (by norm_num) (by norm_num) hsj
    have n1 := cutAt_cont (single_wf (eps := 0) (by norm_num)) single_cont si hsi
    have n2 := cutAt_cont (single_wf (eps := 0) (by norm_num)) single_cont sj hsj
    obtain ⟨p1, p2⟩ := part_law ((cutAt_law le_rfl (single_wf (eps := 0) (by norm_num)) d1).1 si hsi) n1 b3 (hT x) fun x => (b1 x).1
    obtain ⟨q1, q2⟩ := part_law ((cutAt_law le_rfl (single_wf (eps := 0) (by norm_num)) d2).1 sj hsj) n2 c3 (hT x) fun x => (c1 x).1
    obtain ⟨b4, b5⟩ := b1 x
    obtain ⟨c4, c5⟩ := c1 x
    refine ⟨n1, n2, by positivity, ?_⟩
    have h1 : sj.val x * (si.law).real (T x) ≤ 2 * 1 := mul_le_mul c5 (by linarith) p1 (by norm_num)
    have h2 : si.val x * (sj.law).real (T x) ≤ 1 * 1 := mul_le_mul b5 (by linarith) q1 (by norm_num)
    linarith
  constructor
  · obtain ⟨r, r1, r2, -, -⟩ := C92_min_partial ha (ε := fun _ => 3 / 1000) (by norm_num) d1 d2 single_cont single_cont (by
      intro si hsi sj hsj
      have w1 := cutAt_wf (single_wf (eps := 0) (by norm_num)) hsi
      have w2 := cutAt_wf (single_wf (eps := 0) (by norm_num)) hsj
      filter_upwards [((opMin exPar_exact).pair si sj w1 w2 ((cutAt_law le_rfl (single_wf (eps := 0) (by norm_num)) d1).1 si hsi)
        ((cutAt_law le_rfl (single_wf (eps := 0) (by norm_num)) d2).1 sj hsj)).eq, den_ae si, den_ae sj] with x h1 e1 e2 hp
      obtain ⟨n1, n2, k1, k2⟩ := key Ioi (fun x => measurableSet_Ioi) si sj hsi hsj x
      have h2 := h1 ((test_min_points w1 w2 (by rintro a m rfl; simp [Seg.isDirac] at n1)
        (by rintro a m rfl; simp [Seg.isDirac] at n2)).2 hp)
      rw [tk, ← e1, ← e2] at h2
      refine approx_mono (approx_rel h2 (pairMin_scale (1001 / 1000) exPar x n1 n2) k1 k2) ?_
      rw [show |(1001 / 1000 : ℝ) - 1| = 1 / 1000 by norm_num [abs_of_pos]]
      norm_num)
    exact ⟨r, r1, r2⟩
  · obtain ⟨r, r1, r2, -, -⟩ := C92_max_partial ha (ε := fun _ => 3 / 1000) (by norm_num) d1 d2 single_cont single_cont (by
      intro si hsi sj hsj
      have w1 := cutAt_wf (single_wf (eps := 0) (by norm_num)) hsi
      have w2 := cutAt_wf (single_wf (eps := 0) (by norm_num)) hsj
      filter_upwards [((opMax exPar_exact).pair si sj w1 w2 ((cutAt_law le_rfl (single_wf (eps := 0) (by norm_num)) d1).1 si hsi)
        ((cutAt_law le_rfl (single_wf (eps := 0) (by norm_num)) d2).1 sj hsj)).eq, den_ae si, den_ae sj] with x h1 e1 e2 hp
      obtain ⟨n1, n2, k1, k2⟩ := key Iio (fun x => measurableSet_Iio) si sj hsi hsj x
      have h2 := h1 ((test_max_points w1 w2 (by rintro a m rfl; simp [Seg.isDirac] at n1)
        (by rintro a m rfl; simp [Seg.isDirac] at n2)).2 hp)
      rw [tk, ← e1, ← e2] at h2
      refine approx_mono (approx_rel h2 (pairMax_scale (1001 / 1000) exPar x n1 n2) k1 k2) ?_
      rw [show |(1001 / 1000 : ℝ) - 1| = 1 / 1000 by norm_num [abs_of_pos]]
      norm_num)
    exact ⟨r, r1, r2⟩

end Conv
end Pacal
