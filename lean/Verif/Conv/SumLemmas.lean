import Verif.Conv.Breaks

/-! The sum of two distributions: everything put together. -/

namespace Pacal
namespace Conv
open MeasureTheory Set Transform Breaks

/-- the hypotheses on the arguments of a sum -/
structure SumArgs (P : Par) (f g : PF ℝ) : Prop where
  eps : 0 ≤ P.eps
  brk : 0 ≤ P.brkEps
  fne : f ≠ []
  gne : g ≠ []
  fwf : PF.WF P.eps f
  gwf : PF.WF P.eps g
  fhole : f.NoHole
  ghole : g.NoHole
  apart : Apart (· + ·) (max P.brkEps P.eps) f g

/-- the break points of the sum -/
noncomputable def resBreaks (P : Par) (f g : PF ℝ) : List (Ext ℝ) := uniqueX P.brkEps (sumBreaks f g)

variable {P : Par} {f g : PF ℝ}

theorem SumArgs.breaks (h : SumArgs P f g) :
    (resBreaks P f g).Pairwise (· < ·) ∧ ∀ x, x ∈ resBreaks P f g ↔ x ∈ sumBreaks f g := by
  refine uniqueX_spec h.brk (sumBreaks_once f g) ?_
  intro a b ha hb hne
  obtain ⟨p, q, hp, hq, rfl⟩ := mem_sumBreaks_fin.1 ha
  obtain ⟨p', q', hp', hq', rfl⟩ := mem_sumBreaks_fin.1 hb
  exact lt_of_le_of_lt (le_max_left _ _) (h.apart p (breaksExt_mem hp) q (breaksExt_mem hq) p' (breaksExt_mem hp') q' (breaksExt_mem hq') hne)

theorem SumArgs.mem_fin (h : SumArgs P f g) {a b : ℝ} (ha : Ext.fin a ∈ breaksExt f) (hb : Ext.fin b ∈ breaksExt g) :
    Ext.fin (a + b) ∈ resBreaks P f g := (h.breaks.2 _).2 (mem_sumBreaks_fin.2 ⟨a, b, ha, hb, rfl⟩)

theorem SumArgs.no_both (h : SumArgs P f g) (a b : Ext ℝ) (hab : [a, b] <:+: resBreaks P f g) : ¬ (a = .ninf ∧ b = .pinf) := by
  rintro ⟨rfl, rfl⟩
  obtain ⟨p, hp⟩ := List.exists_mem_of_ne_nil _ (exists_finite h.fne)
  obtain ⟨q, hq⟩ := List.exists_mem_of_ne_nil _ (exists_finite h.gne)
  rcases infix_between h.breaks.1 hab (h.mem_fin (mem_finites.1 hp) (mem_finites.1 hq)) with h1 | h1
  · exact not_le_ninf _ h1
  · exact not_pinf_le _ h1

theorem lo_cases (s : Seg ℝ) : (lo s = ⊥ ∧ s.lo = .ninf) ∨ ∃ a : ℝ, lo s = (a : EReal) ∧ s.lo = .fin a := by
  cases s <;> first | exact .inr ⟨_, rfl, rfl⟩ | exact .inl ⟨rfl, rfl⟩

theorem hi_cases (s : Seg ℝ) : (hi s = ⊤ ∧ s.hi = .pinf) ∨ ∃ a : ℝ, hi s = (a : EReal) ∧ s.hi = .fin a := by
  cases s <;> first | exact .inr ⟨_, rfl, rfl⟩ | exact .inl ⟨rfl, rfl⟩

theorem sub_gt (x p q : ℝ) : (x : EReal) - (p : EReal) > (q : EReal) ↔ p + q < x := by
  rw [← EReal.coe_sub, gt_iff_lt, EReal.coe_lt_coe_iff]
  constructor <;> intro <;> linarith

theorem sub_lt (x p q : ℝ) : (x : EReal) - (p : EReal) < (q : EReal) ↔ x < p + q := by
  rw [← EReal.coe_sub, EReal.coe_lt_coe_iff]
  constructor <;> intro <;> linarith

/-- **the pairs do not change between break points** -/
theorem SumArgs.same (h : SumArgs P f g) {a b : Ext ℝ} (hab : [a, b] <:+: resBreaks P f g) {x z : ℝ} (hx : x ∈ interE a b)
    (hz : z ∈ interE a b) {si sj : Seg ℝ} (hi' : si ∈ f) (hj : sj ∈ g) : Meets z si sj ↔ Meets x si sj := by
  obtain ⟨i1, i2⟩ := mem_breaksExt h.fwf h.fhole hi'
  obtain ⟨j1, j2⟩ := mem_breaksExt h.gwf h.ghole hj
  refine and_congr ?_ ?_
  · rcases lo_cases si with ⟨e, -⟩ | ⟨p, e, hp⟩
    · rw [e, sub_coe_bot, sub_coe_bot]
    · rcases lo_cases sj with ⟨e', -⟩ | ⟨q, e', hq⟩
      · rw [e, e']
        exact iff_of_true (EReal.bot_lt_coe (z - p)) (EReal.bot_lt_coe (x - p))
      · rw [hp] at i1
        rw [hq] at j1
        rw [e, e', sub_gt, sub_gt]
        exact (threshold h.breaks.1 hab (h.mem_fin i1 j1) hx hz).1.symm
  · rcases hi_cases si with ⟨e, -⟩ | ⟨p, e, hp⟩
    · rw [e, sub_coe_top, sub_coe_top]
    · rcases hi_cases sj with ⟨e', -⟩ | ⟨q, e', hq⟩
      · rw [e, e']
        exact iff_of_true (EReal.coe_lt_top (z - p)) (EReal.coe_lt_top (x - p))
      · rw [hp] at i2
        rw [hq] at j2
        rw [e, e', sub_lt, sub_lt]
        exact (threshold h.breaks.1 hab (h.mem_fin i2 j2) hx hz).2.symm

theorem SumArgs.out (h : SumArgs P f g) {x : ℝ} {si sj : Seg ℝ} (hi' : si ∈ f) (hj : sj ∈ g) (hm : Meets x si sj) :
    (∃ a ∈ resBreaks P f g, a < .fin x) ∧ ∃ b ∈ resBreaks P f g, .fin x < b := by
  obtain ⟨i1, i2⟩ := mem_breaksExt h.fwf h.fhole hi'
  obtain ⟨j1, j2⟩ := mem_breaksExt h.gwf h.ghole hj
  have hB := h.breaks.2
  constructor
  · have nb : Ext.ninf ∈ breaksExt f ∨ Ext.ninf ∈ breaksExt g → ∃ a ∈ resBreaks P f g, a < .fin x := fun hn =>
      ⟨.ninf, (hB _).2 ((mem_sumBreaks_ninf h.fne).2 hn), ninf_lt_extFin x⟩
    have h1 := hm.1
    rcases lo_cases si with ⟨-, e⟩ | ⟨p, e, hp⟩
    · exact nb (.inl (e ▸ i1))
    · rcases lo_cases sj with ⟨-, e'⟩ | ⟨q, e', hq⟩
      · exact nb (.inr (e' ▸ j1))
      · rw [e, e', sub_gt] at h1
        rw [hp] at i1
        rw [hq] at j1
        exact ⟨_, h.mem_fin i1 j1, extFin_lt.2 h1⟩
  · have nb : Ext.pinf ∈ breaksExt f ∨ Ext.pinf ∈ breaksExt g → ∃ a ∈ resBreaks P f g, .fin x < a := fun hn =>
      ⟨.pinf, (hB _).2 ((mem_sumBreaks_pinf h.fne).2 hn), extFin_lt_pinf x⟩
    have h1 := hm.2
    rcases hi_cases si with ⟨-, e⟩ | ⟨p, e, hp⟩
    · exact nb (.inl (e ▸ i2))
    · rcases hi_cases sj with ⟨-, e'⟩ | ⟨q, e', hq⟩
      · exact nb (.inr (e' ▸ j2))
      · rw [e, e', sub_lt] at h1
        rw [hp] at i2
        rw [hq] at j2
        exact ⟨_, h.mem_fin i2 j2, extFin_lt.2 h1⟩

theorem runAt_sum (P : Par) (f g : PF ℝ) : runAt Meets (pairSum P) f g = sumAt P f g := by
  ext z x
  rw [runAt, sumAt, findSegListAdd]
  congr 3
  funext si sj
  exact decide_eq_decide.2 Iff.rfl

theorem SumArgs.atoms_apart (h : SumArgs P f g) (a m b n a' m' b' n') (h1 : Seg.dirac a m ∈ f) (h2 : Seg.dirac b n ∈ g)
    (h3 : Seg.dirac a' m' ∈ f) (h4 : Seg.dirac b' n' ∈ g) (hne : a + b ≠ a' + b') : P.eps < |a + b - (a' + b')| :=
  lt_of_le_of_lt (le_max_right _ _) (h.apart a ⟨_, h1, .inl rfl⟩ b ⟨_, h2, .inl rfl⟩ a' ⟨_, h3, .inl rfl⟩ b' ⟨_, h4, .inl rfl⟩ hne)

theorem conv_spec (h : SumArgs P f g) (hP : ExactQ P.q P.qp) (hf : PF.Dens f) (hg : PF.Dens g) (pole : ℝ → ℝ → Pole) :
    ∃ r, conv P pole f g = some r ∧ PF.WF P.eps r ∧ PF.Dens r ∧ PF.law r = opLaw (· + ·) (PF.law f) (PF.law g) ∧
      (∀ᵐ x, r.val x = sum2 f g fun i j => pairK i j x) := by
  obtain ⟨d, d1, d2, d3, d4⟩ := convdiracs_law h.eps (· + ·) hf hg h.atoms_apart
  have hdd : PF.diracs d = d := diracs_self fun s hs => by obtain ⟨x, m, rfl, -⟩ := d3 s hs; rfl
  obtain ⟨r, r1, r2, r3, r4, -, r6, -⟩ := run_law measurable_sum h.eps hf hg
    (fun si hsi sj hsj => pairSum_spec hP (h.fwf.seg si hsi) (h.gwf.seg sj hsj) (hf si hsi) (hg sj hsj))
    h.breaks.1 h.no_both
    (fun a b hab x hx si hsi sj hsj => h.same hab hx (mid_mem (infix_lt h.breaks.1 hab) (h.no_both a b hab)) hsi hsj)
    (fun x si hsi sj hsj ht => h.out hsi hsj ht)
    (D := d) (by
      intro s hs
      obtain ⟨x, m, rfl, hm, a, p, b, q, ha, hb, rfl⟩ := d3 s hs
      exact ⟨_, m, rfl, hm, not_inside h.breaks.1 (h.mem_fin (mem_breaksExt h.fwf h.fhole ha).1 (mem_breaksExt h.gwf h.ghole hb).1)⟩)
    (d2.sorted.imp fun h => .inl (.inl h)) d4 pole
  refine ⟨r, ?_, r2, r3, r4, r6⟩
  rw [runAt_sum, addAll_append] at r1
  rw [conv]
  obtain ⟨F, hF, r1⟩ := Option.bind_eq_some_iff.1 r1
  rw [show uniqueX P.brkEps (sumBreaks f g) = resBreaks P f g from rfl, hF, Option.bind_some, d1, Option.bind_some, hdd, r1]

end Conv
end Pacal
