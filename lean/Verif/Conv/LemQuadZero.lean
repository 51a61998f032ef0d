import Verif.Conv.LemQuadAtoms

/-! Products with atoms at 0, with errors in the integrals over pairs of pieces (used for C92). -/

namespace Pacal
namespace Conv
open MeasureTheory Set Transform Breaks

variable {P : Par} {f g : PF ℝ} {ε E : ℝ → ℝ} {l l' : PF ℝ}

/-- if one factor has an atom at 0, the masses of the continuous pieces of the other factor (split at -1, 0 and 1) are exact -/
def ZeroMass (P : Par) (f g : PF ℝ) : Prop :=
  (∀ m, Seg.dirac 0 m ∈ f → ∀ t ∈ cut3 g, t.isDirac = false → t.integrate P.q P.qp ⊥ ⊤ = (t.law).real univ) ∧
  ∀ m, Seg.dirac 0 m ∈ g → ∀ t ∈ cut3 f, t.isDirac = false → t.integrate P.q P.qp ⊥ ⊤ = (t.law).real univ

theorem zeroTimes_congr (hfw : PF.WF P.eps f) (hg : PF.Dens (cut3 g))
    (h : ∀ m, Seg.dirac 0 m ∈ f → ∀ t ∈ cut3 g, t.isDirac = false → t.integrate P.q P.qp ⊥ ⊤ = (t.law).real univ) :
    zeroTimes (exactPar P) (cut3 f) (cut3 g) = zeroTimes P (cut3 f) (cut3 g) := by
  unfold zeroTimes
  congr 1
  refine List.map_congr_left fun s hs => ?_
  cases s with
  | dirac a m =>
    dsimp only
    split_ifs with ha
    · subst ha
      congr 1
      refine List.map_congr_left fun t ht => ?_
      obtain ⟨h1, h2⟩ := List.mem_filter.1 ht
      rw [h m ((cut3_dirac hfw).1 hs) t h1 (by simpa using h2),
        seg_integrate_all (exactPar_exact P) (hg t h1) fun a b c e => cut3_noconst (e ▸ h1)]
    · rfl
  | _ => rfl

theorem zeroAtom_congr (h : ProdArgs P f g) (hf : PF.Dens f) (hg : PF.Dens g) (hz : ZeroMass P f g) :
    zeroAtom (exactPar P) (cut3 f) (cut3 g) = zeroAtom P (cut3 f) (cut3 g) := by
  unfold zeroAtom
  rw [zeroTimes_congr h.fwf (cut3_law h.eps h.gwf hg).1 hz.1, zeroTimes_congr h.gwf (cut3_law h.eps h.fwf hf).1 hz.2]

theorem near_get {n : ℕ} (h : List.Forall₂ (Near E) l l') :
    (l[n]? = none ∧ l'[n]? = none) ∨ ∃ s s', l[n]? = some s ∧ l'[n]? = some s' ∧ Near E s s' := by
  induction h generalizing n with
  | nil => simp
  | cons h hs ih =>
    cases n with
    | zero => exact .inr ⟨_, _, rfl, rfl, h⟩
    | succ n => simpa using ih (n := n)

/-- the pieces found in two functions with the same break points correspond -/
theorem near_find (x : ℝ) (h : List.Forall₂ (Near E) l l') :
    (PF.findSegment l x = none ∧ PF.findSegment l' x = none) ∨ (PF.findSegment l x = some none ∧ PF.findSegment l' x = some none) ∨
      ∃ s s', PF.findSegment l x = some (some s) ∧ PF.findSegment l' x = some (some s') ∧ Near E s s' := by
  have e : bisectLeft Seg.lt l' (.dirac x 0) = bisectLeft Seg.lt l (.dirac x 0) :=
    bisectBy_congr (h.imp fun _ _ hs => near_lt hs (.dirac x 0))
  have hl : l'.length = l.length := h.length_eq.symm
  unfold PF.findSegment
  dsimp only
  rw [e, hl]
  split_ifs with h1 h2
  · rcases near_get (n := bisectLeft Seg.lt l (.dirac x 0)) h with ⟨a, b⟩ | ⟨s, s', a, b, c⟩
    · exact .inl (by rw [a, b]; exact ⟨rfl, rfl⟩)
    · exact .inr (.inr ⟨s, s', by rw [a]; rfl, by rw [b]; rfl, c⟩)
  · rcases near_get (n := 0) h with ⟨a, b⟩ | ⟨s, s', a, b, c⟩
    · exact .inl (by rw [a, b]; exact ⟨rfl, rfl⟩)
    · rw [a, b]
      dsimp only
      rw [c.lo, c.hi]
      split_ifs
      · exact .inr (.inr ⟨s, s', rfl, rfl, c⟩)
      · exact .inr (.inl ⟨rfl, rfl⟩)
  · rcases near_get (n := bisectLeft Seg.lt l (.dirac x 0) - 1) h with ⟨a, b⟩ | ⟨s, s', a, b, c⟩
    · exact .inl (by rw [a, b]; exact ⟨rfl, rfl⟩)
    · rw [a, b]
      dsimp only
      rw [c.hi]
      split_ifs
      · exact .inr (.inr ⟨s, s', rfl, rfl, c⟩)
      · exact .inr (.inl ⟨rfl, rfl⟩)

theorem near_addZero {Q : Par} {w : Option ℝ} {o o' : Option (Seg ℝ)} (h : List.Forall₂ (Near E) l l')
    (ho : (o = none ∧ o' = none) ∨ ∃ s s', o = some s ∧ o' = some s' ∧ Near E s s') :
    NearO E (addZero (exactPar Q) l o w) (addZero Q l' o' w) := by
  cases w with
  | none => exact h
  | some w =>
    have k := near_addSegment Q.eps h (.dirac 0 w)
    rcases ho with ⟨rfl, rfl⟩ | ⟨s, s', rfl, rfl, hs⟩
    · exact k
    · cases hs with
      | dirac a m =>
        simp only [addZero]
        split_ifs
        · exact near_bump h 0 w
        · exact k
      | fin => exact k
      | minf => exact k
      | pinf => exact k

theorem convprod_near_atoms (h : ProdArgs P f g) (hε : ∀ x, 0 ≤ ε x) (hf : PF.Dens f) (hg : PF.Dens g) (hz : ZeroMass P f g)
    (hq : ∀ si ∈ cut3 f, ∀ sj ∈ cut3 g, si.isDirac = false → sj.isDirac = false →
      ∀ᵐ x, (∃ s ∈ si.points, ∃ t ∈ sj.points, s * t = x) → Approx (ε x) (contProd P x si sj) (∫ t, si.val t * sj.val (x / t) / |t|))
    (pole : ℝ → ℝ → Pole) :
    NearO (fun x => sum2 (cut3 f) (cut3 g) (pairErr (ε x))) (convprod (exactPar P) pole f g) (convprod P pole f g) := by
  have f3 := (cut3_law h.eps h.fwf hf).1
  have g3 := (cut3_law h.eps h.gwf hg).1
  have f2 := cut3_wf h.fwf
  have g2 := cut3_wf h.gwf
  have hp := run_near (t := TestMul) (h0 := pairProd (exactPar P)) (h := pairProd P) (f := cut3 f) (g := cut3 g) (brks := pBreaks P f g)
    (e := fun x => pairErr (ε x)) (fun x => pairErr_nonneg (hε x)) (by
      intro si hsi sj hsj
      have hs := pairProd_spec (exactPar_exact P) (f2.seg si hsi) (g2.seg sj hsj) (f3 si hsi) (g3 sj hsj) (cut3_cut h.fwf hsi) (cut3_cut h.gwf hsj)
      by_cases hc : si.isDirac = false ∧ sj.isDirac = false
      · filter_upwards [hs.eq, hq si hsi sj hsj hc.1 hc.2, ae_ne_real 0] with x h1 hap hx0 hm
        obtain ⟨w, h2, h3⟩ := hap (points_of_test (f2.seg si hsi) (g2.seg sj hsj) hm)
        refine ⟨_, w, h1 hm, ?_, ?_⟩
        · rw [pairProd, if_pos hc, h2]
        · rw [pairErr, if_pos hc, prodK, if_pos hc, ← val_integral_mul si sj hx0]; exact h3
      · filter_upwards [hs.eq] with x h1 hm
        refine ⟨_, prodK si sj x, h1 hm, ?_, ?_⟩
        · rw [← h1 hm, pairProd, pairProd, if_neg hc, if_neg hc]
        · simpa using pairErr_nonneg (hε x) si sj)
    (fun a b hab x hx si hsi sj hsj => h.same hab hx (mid_mem (infix_lt h.breaks.1 hab) (h.no_both a b hab)) hsi hsj) pole
  rw [runAt_prod, runAt_prod] at hp
  have h1 := near_addAll P.eps hp (l := []) (l' := []) .nil
  have z := zeroAtom_congr h hf hg hz
  unfold convprod
  rw [show (exactPar P).eps = P.eps from rfl, cut3_eq h.eps h.fwf, Option.bind_some, cut3_eq h.eps h.gwf, Option.bind_some, Option.bind_some, Option.bind_some]
  rw [show prodBreaks (exactPar P) (cut3 f) (cut3 g) = pBreaks P f g from rfl, show prodBreaks P (cut3 f) (cut3 g) = pBreaks P f g from rfl]
  split_ifs
  · trivial
  revert h1
  rcases PF.addAll P.eps [] (pieces pole (prodAt (exactPar P) (cut3 f) (cut3 g)) (pBreaks P f g)) with _ | o <;>
    rcases PF.addAll P.eps [] (pieces pole (prodAt P (cut3 f) (cut3 g)) (pBreaks P f g)) with _ | o' <;> intro h1
  · trivial
  · exact h1.elim
  · exact h1.elim
  rw [Option.bind_some, Option.bind_some]
  rcases convdiracs P.eps (· * ·) (cut3 f) (cut3 g) with _ | d
  · trivial
  have h2 := near_addAll P.eps (near_diracs (E := fun x => sum2 (cut3 f) (cut3 g) (pairErr (ε x))) (d := PF.diracs d)
    fun s hs => (List.mem_filter.1 hs).2) h1
  rw [Option.bind_some, Option.bind_some]
  revert h2
  rcases PF.addAll P.eps o (PF.diracs d) with _ | r <;> rcases PF.addAll P.eps o' (PF.diracs d) with _ | r' <;> intro h2
  · trivial
  · exact h2.elim
  · exact h2.elim
  have h3 : List.Forall₂ _ r r' := h2
  rw [Option.bind_some, Option.bind_some, ← z]
  rcases near_find 0 h3 with ⟨e1, e2⟩ | ⟨e1, e2⟩ | ⟨s, s', e1, e2, hs⟩
  · rw [e1, e2]; trivial
  · rw [e1, e2, Option.bind_some, Option.bind_some]
    exact near_addZero h3 (.inl ⟨rfl, rfl⟩)
  · rw [e1, e2, Option.bind_some, Option.bind_some]
    exact near_addZero h3 (.inr ⟨s, s', rfl, rfl, hs⟩)

/-! ### exact integrals -/

theorem prod_exact (h : ProdArgs P f g) (hP : ExactQ P.q P.qp) (hf : PF.Dens f) (hg : PF.Dens g) :
    ZeroMass P f g ∧ ∀ si ∈ cut3 f, ∀ sj ∈ cut3 g, si.isDirac = false → sj.isDirac = false →
      ∀ᵐ x, (∃ s ∈ si.points, ∃ t ∈ sj.points, s * t = x) → Approx 0 (contProd P x si sj) (∫ t, si.val t * sj.val (x / t) / |t|) := by
  have f3 := (cut3_law h.eps h.fwf hf).1
  have g3 := (cut3_law h.eps h.gwf hg).1
  refine ⟨⟨fun _ _ t ht _ => seg_integrate_all hP (g3 t ht) fun a b c e => cut3_noconst (e ▸ ht),
    fun _ _ t ht _ => seg_integrate_all hP (f3 t ht) fun a b c e => cut3_noconst (e ▸ ht)⟩, fun si hi sj hj hsi hsj => ?_⟩
  filter_upwards [(pairProd_spec hP ((cut3_wf h.fwf).seg si hi) ((cut3_wf h.gwf).seg sj hj) (f3 si hi) (g3 sj hj) (cut3_cut h.fwf hi)
    (cut3_cut h.gwf hj)).eq, ae_ne_real 0] with x h1 hx0 h2
  have ht : TestMul x si sj := by
    obtain ⟨s, hs, t, ht, rfl⟩ := h2
    rw [points_of_not_dirac hsi] at hs
    exact test_of hs.1 hs.2 (points_closed ht).1 (points_closed ht).2 hx0
  have h3 := h1 ht
  rw [pairProd, if_pos ⟨hsi, hsj⟩, prodK, if_pos ⟨hsi, hsj⟩, ← val_integral_mul si sj hx0] at h3
  exact ⟨_, h3, by simp⟩

end Conv
end Pacal
