import Verif.Conv.LemQuadAtoms
import Verif.Conv.LemQuadZero
import Verif.Conv.LemQuadEx
import Verif.Conv.PropsMinMax

/-!
# Property C92 for minimum and maximum of distributions with atoms, and products with atoms at 0

The probabilities of atoms of the result are products of a mass and an integral over a tail; these integrals are assumed exact (they
are sums if the other distribution is discrete), all others have errors.
-/

namespace Pacal
namespace Conv
open MeasureTheory Set Transform Breaks

variable {P : Par} {f g : PF ℝ} {ε : ℝ → ℝ}

/-- **C92, minimum** of distributions with atoms (partial: the integrals over the tails that begin at atoms of the other variable are
exact) -/
theorem C92_min_atoms_partial (h : MMArgs P f g) (hε : ∀ x, 0 ≤ ε x) (hf : PF.Dens f) (hg : PF.Dens g)
    (htf : ∀ a m, Seg.dirac a m ∈ f → (cutAt g f).integrate P.q P.qp a ⊤ = (PF.law g).real (Ioi a))
    (htg : ∀ a m, Seg.dirac a m ∈ g → (cutAt f g).integrate P.q P.qp a ⊤ = (PF.law f).real (Ioi a))
    (hq : ∀ si ∈ cutAt f g, ∀ sj ∈ cutAt g f, si.isDirac = false → sj.isDirac = false →
      ∀ᵐ x, (∃ s ∈ si.points, ∃ t ∈ sj.points, min s t = x) →
        Approx (ε x) (pairMin P x si sj) (sj.val x * (si.law).real (Ioi x) + si.val x * (sj.law).real (Ioi x))) :
    ∃ r, convmin P f g = some r ∧ PF.WF P.eps r ∧ (∀ x, r.massAt x = (opLaw min (PF.law f) (PF.law g)).real {x}) ∧
      ∀ᵐ x, |r.val x - (f.val x * (PF.law g).real (Ioi x) + g.val x * (PF.law f).real (Ioi x))| ≤
        (cutAt f g).count * (cutAt g f).count * ε x := by
  have h0 : MMArgs (exactPar P) f g := ⟨h.eps, h.fne, h.gne, h.fwf, h.gwf, h.apart⟩
  obtain ⟨l, l1, l2, l3, l4, l5⟩ := mm_spec (opMin (exactPar_exact P)) h0 hf hg
  have hn := convMM_near_atoms (pair := pairMin P) (tail := fun h a => h.integrate P.q P.qp a ⊤) (opMin (exactPar_exact P)) h hε hf hg
    (fun x si sj hc => pairMin_atom _ _ x hc) htf htg (fun si hsi sj hsj n1 n2 => by
      filter_upwards [hq si hsi sj hsj n1 n2] with x h1 ht
      exact h1 ((test_min_points (cutAt_wf h.fwf hsi) (cutAt_wf h.gwf hsj) (by rintro a m rfl; simp [Seg.isDirac] at n1)
        (by rintro a m rfl; simp [Seg.isDirac] at n2)).1 ht))
  rw [l1] at hn
  obtain ⟨r, r1, r2⟩ := hn.some
  obtain ⟨d1, m1, v1⟩ := cutAt_law (g := g) h.eps h.fwf hf
  obtain ⟨d2, m2, v2⟩ := cutAt_law (g := f) h.eps h.gwf hg
  refine ⟨r, r1, near_result hε r2 l2 l3 l4 ?_⟩
  filter_upwards [l5, sum2_tk d1 d2 Ioi] with x h1 h2
  rw [h1, h2, v1, v2, m1, m2, add_comm]

/-- **C92, maximum** of distributions with atoms (partial as for the minimum) -/
theorem C92_max_atoms_partial (h : MMArgs P f g) (hε : ∀ x, 0 ≤ ε x) (hf : PF.Dens f) (hg : PF.Dens g)
    (htf : ∀ a m, Seg.dirac a m ∈ f → (cutAt g f).integrate P.q P.qp ⊥ a = (PF.law g).real (Iio a))
    (htg : ∀ a m, Seg.dirac a m ∈ g → (cutAt f g).integrate P.q P.qp ⊥ a = (PF.law f).real (Iio a))
    (hq : ∀ si ∈ cutAt f g, ∀ sj ∈ cutAt g f, si.isDirac = false → sj.isDirac = false →
      ∀ᵐ x, (∃ s ∈ si.points, ∃ t ∈ sj.points, max s t = x) →
        Approx (ε x) (pairMax P x si sj) (sj.val x * (si.law).real (Iio x) + si.val x * (sj.law).real (Iio x))) :
    ∃ r, convmax P f g = some r ∧ PF.WF P.eps r ∧ (∀ x, r.massAt x = (opLaw max (PF.law f) (PF.law g)).real {x}) ∧
      ∀ᵐ x, |r.val x - (f.val x * (PF.law g).real (Iio x) + g.val x * (PF.law f).real (Iio x))| ≤
        (cutAt f g).count * (cutAt g f).count * ε x := by
  have h0 : MMArgs (exactPar P) f g := ⟨h.eps, h.fne, h.gne, h.fwf, h.gwf, h.apart⟩
  obtain ⟨l, l1, l2, l3, l4, l5⟩ := mm_spec (opMax (exactPar_exact P)) h0 hf hg
  have hn := convMM_near_atoms (pair := pairMax P) (tail := fun h a => h.integrate P.q P.qp ⊥ a) (opMax (exactPar_exact P)) h hε hf hg
    (fun x si sj hc => pairMax_atom _ _ x hc) htf htg (fun si hsi sj hsj n1 n2 => by
      filter_upwards [hq si hsi sj hsj n1 n2] with x h1 ht
      exact h1 ((test_max_points (cutAt_wf h.fwf hsi) (cutAt_wf h.gwf hsj) (by rintro a m rfl; simp [Seg.isDirac] at n1)
        (by rintro a m rfl; simp [Seg.isDirac] at n2)).1 ht))
  rw [l1] at hn
  obtain ⟨r, r1, r2⟩ := hn.some
  obtain ⟨d1, m1, v1⟩ := cutAt_law (g := g) h.eps h.fwf hf
  obtain ⟨d2, m2, v2⟩ := cutAt_law (g := f) h.eps h.gwf hg
  refine ⟨r, r1, near_result hε r2 l2 l3 l4 ?_⟩
  filter_upwards [l5, sum2_tk d1 d2 Iio] with x h1 h2
  rw [h1, h2, v1, v2, m1, m2, add_comm]

/-- **C92, products** with atoms at 0 (partial: if one factor has an atom at 0, the integrals of the other factor over each of its
pieces are exact) -/
theorem C92_prod_atoms_partial (h : ProdArgs P f g) (hε : ∀ x, 0 ≤ ε x) (hf : PF.Dens f) (hg : PF.Dens g)
    (hzf : ∀ m, Seg.dirac 0 m ∈ f → ∀ t ∈ cut3 g, t.isDirac = false → t.integrate P.q P.qp ⊥ ⊤ = (t.law).real univ)
    (hzg : ∀ m, Seg.dirac 0 m ∈ g → ∀ t ∈ cut3 f, t.isDirac = false → t.integrate P.q P.qp ⊥ ⊤ = (t.law).real univ)
    (hq : ∀ si ∈ cut3 f, ∀ sj ∈ cut3 g, si.isDirac = false → sj.isDirac = false →
      ∀ᵐ x, (∃ s ∈ si.points, ∃ t ∈ sj.points, s * t = x) → Approx (ε x) (contProd P x si sj) (∫ t, si.val t * sj.val (x / t) / |t|))
    (pole : ℝ → ℝ → Pole) :
    ∃ r, convprod P pole f g = some r ∧ PF.WF P.eps r ∧ (∀ x, r.massAt x = (opLaw (· * ·) (PF.law f) (PF.law g)).real {x}) ∧
      ∀ᵐ x, |r.val x - prodDensity f g x| ≤ (cut3 f).count * (cut3 g).count * ε x := by
  have h0 : ProdArgs (exactPar P) f g := ⟨h.eps, h.fne, h.gne, h.fwf, h.gwf, h.apart, h.alive⟩
  obtain ⟨l, l1, l2, l3, l4, l5⟩ := prod_spec h0 (exactPar_exact P) hf hg pole
  have hn := convprod_near_atoms h hε hf hg ⟨hzf, hzg⟩ hq pole
  rw [l1] at hn
  obtain ⟨r, r1, r2⟩ := hn.some
  refine ⟨r, r1, near_result hε r2 l2 l3 l4 ?_⟩
  filter_upwards [l5, sum2_prodK (cut3_law h.eps h.fwf hf).1 (cut3_law h.eps h.gwf hg).1] with x h1 h2
  rw [h1, h2, prodDensity_cut h.eps h.fwf h.gwf hf hg]

/-! ### non-vacuity -/

/-- minimum and maximum of two independent copies of a fair mixture of 0 and the uniform distribution on `[0, 1]`; the quadrature is
exact here, so the error is 0 -/
example : (∃ r, convmin exPar halfAtom halfAtom = some r ∧
      ∀ᵐ x, r.val x = halfAtom.val x * (PF.law halfAtom).real (Ioi x) + halfAtom.val x * (PF.law halfAtom).real (Ioi x)) ∧
    ∃ r, convmax exPar halfAtom halfAtom = some r ∧
      ∀ᵐ x, r.val x = halfAtom.val x * (PF.law halfAtom).real (Iio x) + halfAtom.val x * (PF.law halfAtom).real (Iio x) := by
  have hc := cutAt_law (g := halfAtom) halfAtom_mm.eps halfAtom_mm.fwf halfAtom_dens
  constructor
  · have ht : ∀ a m, Seg.dirac a m ∈ halfAtom →
        (cutAt halfAtom halfAtom).integrate exPar.q exPar.qp a ⊤ = (PF.law halfAtom).real (Ioi a) := by
      intro a m _
      rw [← hc.2.1]
      exact (opMin exPar_exact).tail _ _ hc.1 a
    obtain ⟨r, r1, -, -, r4⟩ := C92_min_atoms_partial (ε := fun _ => 0) halfAtom_mm (fun _ => le_rfl) halfAtom_dens halfAtom_dens ht ht (by
      intro si hsi sj hsj n1 n2
      have w1 := cutAt_wf halfAtom_mm.fwf hsi
      have w2 := cutAt_wf halfAtom_mm.fwf hsj
      filter_upwards [((opMin exPar_exact).pair si sj w1 w2 (hc.1 si hsi) (hc.1 sj hsj)).eq, den_ae si, den_ae sj] with x h1 e1 e2 hp
      have h2 := h1 ((test_min_points w1 w2 (by rintro a m rfl; simp [Seg.isDirac] at n1)
        (by rintro a m rfl; simp [Seg.isDirac] at n2)).2 hp)
      rw [tk, ← e1, ← e2] at h2
      exact ⟨_, h2, by simp⟩)
    refine ⟨r, r1, ?_⟩
    filter_upwards [r4] with x hx
    rw [mul_zero] at hx
    exact sub_eq_zero.1 (abs_nonpos_iff.1 hx)
  · have ht : ∀ a m, Seg.dirac a m ∈ halfAtom →
        (cutAt halfAtom halfAtom).integrate exPar.q exPar.qp ⊥ a = (PF.law halfAtom).real (Iio a) := by
      intro a m _
      rw [← hc.2.1]
      exact (opMax exPar_exact).tail _ _ hc.1 a
    obtain ⟨r, r1, -, -, r4⟩ := C92_max_atoms_partial (ε := fun _ => 0) halfAtom_mm (fun _ => le_rfl) halfAtom_dens halfAtom_dens ht ht (by
      intro si hsi sj hsj n1 n2
      have w1 := cutAt_wf halfAtom_mm.fwf hsi
      have w2 := cutAt_wf halfAtom_mm.fwf hsj
      filter_upwards [((opMax exPar_exact).pair si sj w1 w2 (hc.1 si hsi) (hc.1 sj hsj)).eq, den_ae si, den_ae sj] with x h1 e1 e2 hp
      have h2 := h1 ((test_max_points w1 w2 (by rintro a m rfl; simp [Seg.isDirac] at n1)
        (by rintro a m rfl; simp [Seg.isDirac] at n2)).2 hp)
      rw [tk, ← e1, ← e2] at h2
      exact ⟨_, h2, by simp⟩)
    refine ⟨r, r1, ?_⟩
    filter_upwards [r4] with x hx
    rw [mul_zero] at hx
    exact sub_eq_zero.1 (abs_nonpos_iff.1 hx)

/-- the product of the same variables: the atom at 0 has the probability 3/4 that one of them is 0 -/
example : ∃ r, convprod exPar (fun _ _ => .none) halfAtom halfAtom = some r ∧
    r.massAt 0 = (opLaw (· * ·) (PF.law halfAtom) (PF.law halfAtom)).real {0} ∧ ∀ᵐ x, r.val x = prodDensity halfAtom halfAtom x := by
  obtain ⟨hz, hq⟩ := prod_exact halfAtom_prod exPar_exact halfAtom_dens halfAtom_dens
  obtain ⟨r, r1, -, r3, r4⟩ := C92_prod_atoms_partial (ε := fun _ => 0) halfAtom_prod (fun _ => le_rfl) halfAtom_dens halfAtom_dens hz.1 hz.2 hq
    fun _ _ => .none
  refine ⟨r, r1, r3 0, ?_⟩
  filter_upwards [r4] with x hx
  rw [mul_zero] at hx
  exact sub_eq_zero.1 (abs_nonpos_iff.1 hx)

/-- the maximum of the same variables with a relative error of 0.1% in every integral: the integrals up to the atom 0 are still exact,
as nothing lies below 0, and the atom of the result is exact -/
example : ∃ r, convmax (relPar (1001 / 1000) exPar) halfAtom halfAtom = some r ∧
    r.massAt 0 = (opLaw max (PF.law halfAtom) (PF.law halfAtom)).real {0} := by
  have hm : MMArgs (relPar (1001 / 1000) exPar) halfAtom halfAtom :=
    ⟨halfAtom_mm.eps, halfAtom_mm.fne, halfAtom_mm.gne, halfAtom_mm.fwf, halfAtom_mm.gwf, halfAtom_mm.apart⟩
  have hcut : cutAt halfAtom halfAtom = [.dirac 0 (1 / 2), .fin .none 0 1 fun _ => 1 / 2] := by
    have h0 : (PF.finites (PF.getBreaks halfAtom)).filter (fun p => decide (0 < p ∧ p < 1)) = [] := by
      refine List.filter_eq_nil_iff.2 fun p hp => ?_
      have h1 : Ext.fin p ∈ PF.getBreaks halfAtom := by
        simp only [PF.finites, List.mem_filterMap] at hp
        obtain ⟨e, he, h⟩ := hp
        split at h
        · obtain rfl := Option.some.inj h
          exact he
        · simp at h
      obtain ⟨s, hs, h⟩ := mem_getBreaks.1 h1
      simp only [halfAtom, List.mem_cons, List.not_mem_nil, or_false] at hs
      rcases hs with rfl | rfl <;> simp only [Seg.lo, Seg.hi, Breaks.fin_inj] at h <;> rcases h with rfl | rfl <;> norm_num
    have e : cutAt halfAtom halfAtom = PF.splitSeg (PF.finites (PF.getBreaks halfAtom)) (.dirac 0 (1 / 2)) ++
        PF.splitSeg (PF.finites (PF.getBreaks halfAtom)) (.const 0 1 (1 / 2)) := by
      unfold cutAt
      generalize PF.finites (PF.getBreaks halfAtom) = ps
      simp [halfAtom]
    rw [e]
    simp only [PF.splitSeg, h0, PF.splitFin]
    rfl
  have hd : ∀ s ∈ cutAt halfAtom halfAtom, s.Dens := (cutAt_law (g := halfAtom) halfAtom_mm.eps halfAtom_mm.fwf halfAtom_dens).1
  have hlaw : (PF.law halfAtom).real (Iio 0) = 0 := by
    rw [← (cutAt_law (g := halfAtom) halfAtom_mm.eps halfAtom_mm.fwf halfAtom_dens).2.1, ← (tail_eq exPar_exact hd 0).2, hcut]
    simp [PF.integrate, Seg.integrate, exPar, exactQuad, clipLo, clipHi, show ¬ (1 : ℝ) < 0 by norm_num]
  have ht : ∀ a m, Seg.dirac a m ∈ halfAtom →
      (cutAt halfAtom halfAtom).integrate (relPar (1001 / 1000) exPar).q (relPar (1001 / 1000) exPar).qp ⊥ a =
        (PF.law halfAtom).real (Iio a) := by
    intro a m h
    simp only [halfAtom, List.mem_cons, Seg.dirac.injEq, List.not_mem_nil, or_false, reduceCtorEq] at h
    rw [h.1, hlaw, hcut]
    simp [PF.integrate, Seg.integrate, relPar, scaleQ, exPar, exactQuad, clipLo, clipHi, show ¬ (1 : ℝ) < 0 by norm_num]
  have hs : ∀ s ∈ cutAt halfAtom halfAtom, s.isDirac = false → s = .fin .none 0 1 fun _ => 1 / 2 := by
    intro s hs h
    rw [hcut] at hs
    simp only [List.mem_cons, List.not_mem_nil, or_false] at hs
    rcases hs with rfl | rfl
    · simp [Seg.isDirac] at h
    · rfl
  have hb : ∀ x, 0 ≤ (Seg.fin .none 0 1 fun _ => (1 / 2 : ℝ)).val x ∧ (Seg.fin .none 0 1 fun _ => (1 / 2 : ℝ)).val x ≤ 1 / 2 := by
    intro x
    simp only [Seg.val]
    split_ifs <;> norm_num [Seg.fn]
  have hl : ∀ x : ℝ, 0 ≤ (Seg.fin .none 0 1 fun _ => (1 / 2 : ℝ)).law.real (Iio x) ∧
      (Seg.fin .none 0 1 fun _ => (1 / 2 : ℝ)).law.real (Iio x) ≤ 1 / 2 := by
    intro x
    have hc := const_dens 0 1 (c := 1 / 2) (by norm_num)
    have hi := const_mass 0 1 (c := 1 / 2) (by norm_num) (by norm_num)
    rw [Seg.law_real rfl hc MeasurableSet.univ, setIntegral_univ] at hi
    have he : (Seg.fin .none 0 1 fun _ => (1 / 2 : ℝ)).val = (Seg.const 0 1 (1 / 2 : ℝ)).val := rfl
    refine part_law (hd _ (by rw [hcut]; simp)) rfl ?_ measurableSet_Iio fun x => (hb x).1
    rw [he, hi]
    norm_num
  obtain ⟨r, r1, -, r3, -⟩ := C92_max_atoms_partial (ε := fun _ => 1 / 2000) hm (by norm_num) halfAtom_dens halfAtom_dens ht ht (by
    intro si hsi sj hsj n1 n2
    have w1 := cutAt_wf halfAtom_mm.fwf hsi
    have w2 := cutAt_wf halfAtom_mm.fwf hsj
    filter_upwards [((opMax exPar_exact).pair si sj w1 w2 (hd si hsi) (hd sj hsj)).eq, den_ae si, den_ae sj] with x h1 e1 e2 hp
    have h2 := h1 ((test_max_points w1 w2 (by rintro a m rfl; simp [Seg.isDirac] at n1)
      (by rintro a m rfl; simp [Seg.isDirac] at n2)).2 hp)
    rw [tk, ← e1, ← e2] at h2
    have k := pairMax_scale (1001 / 1000) exPar x n1 n2
    obtain rfl := hs si hsi n1
    obtain rfl := hs sj hsj n2
    have b := hb x
    have l := hl x
    refine approx_mono (approx_rel (V := 1 / 2) h2 k (add_nonneg (mul_nonneg b.1 l.1) (mul_nonneg b.1 l.1)) (by nlinarith [mul_le_mul b.2 l.2 l.1 (by norm_num)])) ?_
    norm_num [abs_of_pos])
  exact ⟨r, r1, r3 0⟩

end Conv
end Pacal
