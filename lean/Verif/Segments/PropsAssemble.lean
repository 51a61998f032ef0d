import Verif.Segments.Eval
import Mathlib.Algebra.Order.Field.Rat
import Mathlib.Data.Rat.Defs

/-!
# Properties C01, C02, C03, C56

C01 order of assembly, C02 merging of atoms, C03 evaluation, C56 nonnegativity guard.
Definitions used in the statements: model (`Verif.Segments.Model`) and specification
(`Verif.Segments.Spec`).
-/

set_option linter.unusedSectionVars false

namespace Pacal
variable {K : Type*} [Field K] [LinearOrder K] [IsStrictOrderedRing K]

/-! ## C01 -/

/-- **C01.** Pieces that pairwise do not overlap can be added in any order: no call fails, and every
order gives the same piecewise function `r`, which contains exactly the given pieces, listed from left to
right. -/
theorem C01_order_independent {eps : K} (he : 0 ≤ eps) (l : List (Seg K)) (hwf : ∀ s ∈ l, s.WF)
    (hdis : l.Pairwise (Seg.Disjoint eps)) :
    ∃ r : PF K, r.Perm l ∧ PF.WF eps r ∧
      ∀ l' : List (Seg K), l'.Perm l → PF.addAll eps [] l' = some r := by
  obtain ⟨r, hr, hp, hw⟩ := addAll_wf he l [] ⟨by simp, List.Pairwise.nil⟩ hwf hdis (by simp)
  rw [List.append_nil] at hp
  refine ⟨r, hp, hw, ?_⟩
  intro l' hl'
  obtain ⟨r', hr', hp', hw'⟩ := addAll_wf he l' [] ⟨by simp, List.Pairwise.nil⟩
    (fun s hs => hwf s (hl'.mem_iff.1 hs))
    ((hl'.pairwise_iff (fun h => Seg.Disjoint.symm h)).2 hdis) (by simp)
  rw [List.append_nil] at hp'
  rw [hr', wf_perm_unique he hw' hw (hp'.trans (hl'.trans hp.symm))]

/-- **C01.** The break points reported for any piecewise function are strictly increasing and are
exactly the end points of its pieces. -/
theorem C01_breaks (l : PF K) :
    (PF.getBreaks l).Pairwise (· < ·) ∧
      ∀ e, e ∈ PF.getBreaks l ↔ ∃ s ∈ l, e = s.lo ∨ e = s.hi := by
  unfold PF.getBreaks
  split
  · rename_i h
    have : l = [] := List.length_eq_zero_iff.1 h
    subst this; simp
  · refine ⟨npUnique_sorted _, ?_⟩
    intro e
    rw [mem_npUnique]
    simp only [List.mem_append, List.mem_map]
    constructor
    · rintro (⟨s, hs, rfl⟩ | ⟨s, hs, rfl⟩)
      · exact ⟨s, hs, .inl rfl⟩
      · exact ⟨s, hs, .inr rfl⟩
    · rintro ⟨s, hs, rfl | rfl⟩
      · exact .inl ⟨s, hs, rfl⟩
      · exact .inr ⟨s, hs, rfl⟩

/-- a sample family: left tail, a piece, an atom at a common end point, a piece with a pole, right tail -/
def sampleSegs : List (Seg ℚ) :=
  [.fin .left 1 2 (fun x => x), .dirac 1 (1/2), .pinf 3 (fun _ => 0), .const 0 1 1, .minf 0 (fun _ => 0)]

example : (∀ s ∈ sampleSegs, s.WF) ∧ sampleSegs.Pairwise (Seg.Disjoint (1/1000)) := by
  constructor
  · simp [sampleSegs, Seg.WF]
  · simp [sampleSegs, Seg.Disjoint, Seg.LeftOf, Seg.lo, Seg.hi]
    norm_num

/-- Finding: two *partially* overlapping pieces `[0,2]`, `[1,3]` are accepted by `addSegment`
(only nested ones are rejected), so the "non-overlapping" hypothesis is the caller's duty. -/
theorem C01_finding_partial_overlap_accepted :
    ∃ r, PF.addAll (0 : ℚ) [] [.const 0 2 1, .const 1 3 1] = some r ∧ ¬ PF.WF 0 r := by
  refine ⟨[.const 0 2 1, .const 1 3 1], ?_, ?_⟩
  · have h : Seg.lt (.const (0:ℚ) 2 1) (.const 1 3 1) = true := by
      simp [Seg.lt_iff, Seg.lo, Seg.hi]; norm_num
    have h' := Seg.lt_asymm h
    simp [PF.addAll, PF.addSegment, PF.insertSeg, bisectLeft, bisectBy, bisectGo, insort, h, h']
  · rintro ⟨-, h⟩
    simp [Seg.LeftOf, Seg.lo, Seg.hi] at h

/-- Nested pieces are rejected (the `assert` fails), whichever is added last. -/
theorem C01_nested_rejected {eps a b c d : K} (p q : Pole) (f g : K → K) (hac : a < c) (hdb : d < b) :
    PF.addAll eps [] [.fin p a b f, .fin q c d g] = none ∧
      PF.addAll eps [] [.fin q c d g, .fin p a b f] = none := by
  have h₁ : Seg.lt (.fin p a b f) (.fin q c d g) = false := by
    have : ¬ (Seg.lt (.fin p a b f) (.fin q c d g) = true) := by
      simp [Seg.lt_iff, Seg.lo, Seg.hi, hac, hac.le, hdb, hdb.le]
    simpa using this
  have h₂ : Seg.lt (.fin q c d g) (.fin p a b f) = false := by
    have : ¬ (Seg.lt (.fin q c d g) (.fin p a b f) = true) := by
      simp [Seg.lt_iff, Seg.lo, Seg.hi, hac, hac.le, hdb, hdb.le]
    simpa using this
  constructor <;>
  simp [PF.addAll, PF.addSegment, PF.insertSeg, bisectLeft, bisectBy, bisectGo, insort, h₁, h₂,
    Seg.gt_eq]

/-! ## C02 -/

/-- **C02 (mass).** Whatever is added to whatever function, as long as no call fails the total mass of
the atoms is the sum of the masses added. -/
theorem C02_total_mass {eps : K} {ss : List (Seg K)} {l r : PF K}
    (h : PF.addAll eps l ss = some r) : r.atomMass = l.atomMass + (ss.map Seg.mass).sum := by
  rw [addAll_mass h, add_comm]

/-- **C02 (merging).** Adding a second atom within the tolerance of an existing one never creates a new
atom: the number of pieces is unchanged and the existing atom keeps its place. -/
theorem C02_close_atoms_merge {eps a m a' m' : K} (l : PF K) (hmem : .dirac a' m' ∈ l)
    (hc : |a - a'| ≤ eps) :
    ∃ l₁ b n l₂, l = l₁ ++ Seg.dirac b n :: l₂ ∧ |a - b| ≤ eps ∧
      PF.addSegment eps l (.dirac a m) = some (l₁ ++ Seg.dirac b (n + m) :: l₂) := by
  obtain ⟨r, hr⟩ := mergeDirac_isSome (m := m) hmem hc
  obtain ⟨l₁, b, n, l₂, h₁, h₂, h₃⟩ := mergeDirac_some hr
  exact ⟨l₁, b, n, l₂, h₁, h₃, by simp [PF.addSegment, hr, h₂]⟩

/-- **C02 (exact point masses).** If the added pieces pairwise do not overlap, except that several atoms
may sit at the same place, then no call fails, the result is well formed (atoms more than `eps` apart) and
puts on every point exactly the sum of the masses added there; the other pieces are exactly those added. -/
theorem C02_point_masses {eps : K} (he : 0 ≤ eps) (ss : List (Seg K)) (hwf : ∀ s ∈ ss, s.WF)
    (hc : ss.Pairwise fun s t => Seg.Disjoint eps s t ∨ ∃ a m m', s = .dirac a m ∧ t = .dirac a m') :
    ∃ r, PF.addAll eps [] ss = some r ∧ PF.WF eps r ∧
      (∀ x, r.massAt x = (ss.map (Seg.massAt x)).sum) ∧ (PF.segs r).Perm (PF.segs ss) := by
  obtain ⟨r, h₁, h₂, h₃, h₄, -⟩ := addAll_compat he ss [] ⟨by simp, List.Pairwise.nil⟩ hwf hc (by simp)
  refine ⟨r, h₁, h₂, ?_, ?_⟩
  · intro x; rw [h₃]; simp [PF.massAt]
  · simpa [PF.segs] using h₄

/-- two atoms at 1, one at 2 and a piece `[1,2]`: the hypotheses of `C02_point_masses` are met -/
example : let ss : List (Seg ℚ) := [.dirac 1 (1/4), .dirac 2 (1/4), .const 1 2 (1/4), .dirac 1 (1/4)]
    (∀ s ∈ ss, s.WF) ∧ ss.Pairwise fun s t =>
      Seg.Disjoint (1/1000) s t ∨ ∃ a m m', s = .dirac a m ∧ t = .dirac a m' := by
  constructor
  · simp [Seg.WF]
  · simp [Seg.Disjoint, Seg.LeftOf, Seg.lo, Seg.hi]
    refine ⟨?_, ?_⟩
    · norm_num
      rintro a m a' m' rfl rfl rfl rfl; norm_num
    · norm_num

/-- Atoms only: any sequence of atoms whatsoever is accepted. -/
theorem C02_atoms_always_accepted {eps : K} (he : 0 ≤ eps) (ps : List (K × K)) :
    ∃ r, PF.addAll eps [] (ps.map fun p => Seg.dirac p.1 p.2) = some r ∧ PF.WF eps r ∧
      (∀ s ∈ r, s.isDirac = true) ∧ r.atomMass = (ps.map Prod.snd).sum := by
  have key : ∀ (ps : List (K × K)) (l : PF K), PF.WF eps l → (∀ s ∈ l, s.isDirac = true) →
      ∃ r, PF.addAll eps l (ps.map fun p => Seg.dirac p.1 p.2) = some r ∧ PF.WF eps r ∧
        (∀ s ∈ r, s.isDirac = true) := by
    intro ps
    induction ps with
    | nil => intro l h h'; exact ⟨l, rfl, h, h'⟩
    | cons p ps ih =>
      intro l hl hd
      have : ∃ r, PF.addSegment eps l (.dirac p.1 p.2) = some r ∧ PF.WF eps r ∧
          (∀ s ∈ r, s.isDirac = true) := by
        by_cases hc : ∀ a' m', Seg.dirac a' m' ∈ l → eps < |p.1 - a'|
        · obtain ⟨r, hr, hp, hw⟩ := addSegment_wf he (s := .dirac p.1 p.2) trivial hl (by
            intro t ht
            have hdt := hd t ht
            cases t <;> simp [Seg.isDirac] at hdt
            rename_i a' m'
            have := hc a' m' ht
            rcases le_total p.1 a' with h | h
            · left
              refine ⟨by simpa [Seg.lo, Seg.hi] using h, ?_⟩
              rintro _ _ _ _ h₁ h₂
              cases h₁; cases h₂; exact this
            · right
              refine ⟨by simpa [Seg.lo, Seg.hi] using h, ?_⟩
              rintro _ _ _ _ h₁ h₂
              cases h₁; cases h₂; rw [abs_sub_comm]; exact this)
          refine ⟨r, hr, hw, ?_⟩
          intro s hs
          rcases List.mem_cons.1 (hp.mem_iff.1 hs) with rfl | h
          · rfl
          · exact hd s h
        · push Not at hc
          obtain ⟨a', m', hm, hc⟩ := hc
          obtain ⟨r, hr⟩ := mergeDirac_isSome (m := p.2) hm hc
          obtain ⟨l₁, b, n, l₂, rfl, rfl, h₃⟩ := mergeDirac_some hr
          refine ⟨_, by simp only [PF.addSegment, hr]; rfl, wf_change_mass hl, ?_⟩
          intro s hs
          rcases List.mem_append.1 hs with h | h
          · exact hd s (by simp [h])
          · rcases List.mem_cons.1 h with rfl | h
            · rfl
            · exact hd s (by simp [h])
      obtain ⟨r, hr, hw, hd'⟩ := this
      obtain ⟨r', hr', h⟩ := ih r hw hd'
      exact ⟨r', by simp [PF.addAll, hr, hr'], h⟩
  obtain ⟨r, h₁, h₂, h₃⟩ := key ps [] ⟨by simp, List.Pairwise.nil⟩ (by simp)
  refine ⟨r, h₁, h₂, h₃, ?_⟩
  rw [addAll_mass h₁]
  simp [PF.atomMass, List.map_map, Function.comp_def, Seg.mass]

/-- Finding: an atom strictly inside an existing continuous piece is silently moved to the left end
of that piece (segments.py:1096-1097). -/
theorem C02_finding_atom_inside_piece_moves {eps a b c x m : K} (hax : a < x) (hxb : x < b) :
    PF.addAll eps [] [.const a b c, .dirac x m] = some [.dirac a m, .const a b c] := by
  have hab := hax.trans hxb
  have h₁ : Seg.lt (.const a b c) (.dirac x m) = false := by
    have : ¬ (Seg.lt (.const a b c) (.dirac x m) = true) := by
      simp [Seg.lt_iff, Seg.lo, Seg.hi, hxb, hxb.le]
    simpa using this
  have h₂ : Seg.lt (.dirac x m) (.const a b c) = false := by
    have : ¬ (Seg.lt (.dirac x m) (.const a b c) = true) := by
      simp [Seg.lt_iff, Seg.lo, Seg.hi, hax, hax.le]
    simpa using this
  have h₃ : Seg.lt (.dirac a m) (.const a b c) = true := by
    simp [Seg.lt_iff, Seg.lo, Seg.hi, hab]
  simp [PF.addAll, PF.addSegment, PF.mergeDirac, PF.insertSeg, bisectLeft, bisectBy, bisectGo, insort,
    h₁, h₂, h₃, Seg.gt_eq]

/-! ## C03 -/

/-- **C03 (arrays).** Evaluation on an array returns at each point the value of the piece `[a,b)`
containing it, and 0 where there is none; the only exception is the right end of the last piece, where the value
of the last piece is returned. -/
theorem C03_eval_array {eps : K} {l : PF K} (hl : PF.WF eps l) (x : K) :
    (∀ s, (PF.segs l).getLast? = some s → s.hi = .fin x → PF.evalVec l x = s.fn x) ∧
    ((∀ s, (PF.segs l).getLast? = some s → s.hi ≠ .fin x) → PF.evalVec l x = l.val x) := by
  have hv := evalVecLoop_val (segs_wf hl) (by
    intro s hs
    have := (List.mem_filter.1 hs).2
    simpa using this) x
  unfold PF.evalVec
  constructor
  · intro s hs h
    simp [hs, h]
  · intro h
    rw [hv, ← val_eq_segs]
    dsimp only
    cases hg : (PF.segs l).getLast? with
    | none => rfl
    | some s =>
      have := h s hg
      simp only
      rw [if_neg (Ne.symm this)]

/-- No gaps: every point is in a piece, or left of everything, or right of everything. -/
def PF.NoGap (l : PF K) : Prop :=
  ∀ x : K, (∃ s ∈ l, s.isDirac = false ∧ s.lo ≤ .fin x ∧ .fin x < s.hi) ∨
    (∀ s ∈ l, .fin x < s.lo) ∨ (∀ s ∈ l, s.hi ≤ .fin x)

/-- **C03 (scalars), covered point.** At a point of a piece `[a,b)` carrying no atom, scalar evaluation
returns the value of that piece. -/
theorem C03_eval_scalar_covered {eps : K} {l : PF K} (hl : PF.WF eps l) (x : K) (s : Seg K)
    (hs : s ∈ l) (hd : s.isDirac = false) (ha : s.lo ≤ .fin x) (hb : .fin x < s.hi)
    (hatom : ∀ m, .dirac x m ∉ l) : PF.evalScalar l x = some (s.fn x) ∧ l.val x = s.fn x := by
  obtain ⟨l₁, l₂, rfl⟩ := List.append_of_mem hs
  refine ⟨?_, val_split hl hd ha hb⟩
  have hc := wf_append hl
  have noat : ∀ y ∈ l₁ ++ s :: l₂, ¬ (y.isDirac = true ∧ y.lo = .fin x) := by
    rintro y hy ⟨h₁, h₂⟩
    cases y <;> simp [Seg.isDirac] at h₁
    simp only [Seg.lo, Ext.fin_inj] at h₂
    subst h₂
    exact hatom _ hy
  have := findSegment_mid (x := x) hl (by
      intro y hy
      exact ⟨(hc.2.2 y hy s (by simp)).1.trans ha, noat y (by simp [hy])⟩) (by
      rintro y hy ⟨h, -⟩
      rcases List.mem_cons.1 hy with rfl | hy
      · exact absurd h (not_le.2 hb)
      · have h₁ := ((List.pairwise_cons.1 hc.2.1.sorted).1 y hy).1
        have h₂ := Seg.lo_le_hi (hl.seg y (by simp [hy]))
        exact absurd ((hb.trans_le h₁).trans_le (h₂.trans h)) (lt_irrefl _))
  unfold PF.evalScalar
  rw [this]
  split <;> simp_all [hb.le]

/-- **C03.** For a function without gaps, scalar evaluation at a point carrying no atom and not the
right end of everything returns the value of the piece containing the point, 0 outside, and agrees with array
evaluation. -/
theorem C03_eval_agree_partial {eps : K} {l : PF K} (hl : PF.WF eps l) (hne : l ≠ []) (hgap : l.NoGap)
    (x : K) (hatom : ∀ m, .dirac x m ∉ l) (hend : ∀ s ∈ l, s.hi = .fin x → ∃ t ∈ l, .fin x < t.hi) :
    PF.evalScalar l x = some (l.val x) ∧ PF.evalVec l x = l.val x := by
  have noat : ∀ y ∈ l, ¬ (y.isDirac = true ∧ y.lo = .fin x) := by
    rintro y hy ⟨h₁, h₂⟩
    cases y <;> simp [Seg.isDirac] at h₁
    simp only [Seg.lo, Ext.fin_inj] at h₂
    subst h₂
    exact hatom _ hy
  have hlast : ∀ s, (PF.segs l).getLast? = some s → s.hi = .fin x →
      ∃ t ∈ l, t.isDirac = false ∧ t.lo ≤ .fin x ∧ .fin x < t.hi := by
    intro s hs h
    have hsm := List.mem_of_getLast? hs
    have hsl : s ∈ l := (List.mem_filter.1 hsm).1
    have hsd : s.isDirac = false := by simpa using (List.mem_filter.1 hsm).2
    rcases hgap x with h' | h' | h'
    · exact h'
    · have := h' s hsl
      have h₂ := Seg.lo_le_hi (hl.seg s hsl)
      rw [h] at h₂
      exact absurd (this.trans_le h₂) (lt_irrefl _)
    · obtain ⟨t, ht, h₃⟩ := hend s hsl h
      exact absurd h₃ (not_lt.2 (h' t ht))
  constructor
  · rcases hgap x with ⟨s, hs, hd, ha, hb⟩ | h | h
    · have := C03_eval_scalar_covered hl x s hs hd ha hb hatom
      rw [this.1, this.2]
    · obtain ⟨s, l₂, rfl⟩ := List.exists_cons_of_ne_nil hne
      have hval : PF.val (s :: l₂) x = 0 := by
        unfold PF.val
        rw [List.sum_eq_zero]
        intro y hy
        obtain ⟨t, ht, rfl⟩ := List.mem_map.1 hy
        unfold Seg.val
        rw [if_neg]
        rintro ⟨-, h₁, -⟩
        exact absurd h₁ (not_le.2 (h t ht))
      have hf := findSegment_mid (l₁ := []) (l₂ := l₂) (s := s) (x := x) hl (by simp) (by
        rintro y hy ⟨h₁, -⟩
        have h₂ := Seg.lo_le_hi (hl.seg y hy)
        exact absurd ((h y hy).trans_le (h₂.trans h₁)) (lt_irrefl _))
      unfold PF.evalScalar
      simp only [List.nil_append] at hf
      rw [hf, hval]
      have := h s (by simp)
      simp [not_le.2 this]
    · have hval : l.val x = 0 := by
        unfold PF.val
        rw [List.sum_eq_zero]
        intro y hy
        obtain ⟨t, ht, rfl⟩ := List.mem_map.1 hy
        unfold Seg.val
        rw [if_neg]
        rintro ⟨-, -, h₁⟩
        exact absurd h₁ (not_lt.2 (h t ht))
      obtain ⟨l', s, rfl⟩ : ∃ l' s, l = l' ++ [s] :=
        ⟨l.dropLast, l.getLast hne, (List.dropLast_append_getLast hne).symm⟩
      have hf := findSegment_end (x := x) hl (fun y hy => ⟨h y hy, noat y hy⟩)
      unfold PF.evalScalar
      rw [hf, hval]
      have : s.hi ≠ .fin x := by
        intro h'
        obtain ⟨t, ht, h₃⟩ := hend s (by simp) h'
        exact absurd h₃ (not_lt.2 (h t ht))
      simp [this]
  · by_cases hx : ∀ s, (PF.segs l).getLast? = some s → s.hi ≠ .fin x
    · exact (C03_eval_array hl x).2 hx
    · push Not at hx
      obtain ⟨s, hs, h⟩ := hx
      exfalso
      obtain ⟨t, ht, hd, ha, hb⟩ := hlast s hs h
      have htm : t ∈ PF.segs l := List.mem_filter.2 ⟨ht, by simp [hd]⟩
      have hsw := segs_wf hl
      obtain ⟨ys, hys⟩ := List.getLast?_eq_some_iff.1 hs
      rw [hys] at htm hsw
      rcases List.mem_append.1 htm with h' | h'
      · have := ((wf_append hsw).2.2 t h' s (by simp)).1
        have h₂ := Seg.lo_le_hi (hsw.seg s (by simp))
        rw [h] at h₂
        exact absurd (hb.trans_le (this.trans h₂)) (lt_irrefl _)
      · simp at h'
        subst h'
        rw [h] at hb
        exact absurd hb (lt_irrefl _)

/-- **C03 (atoms).** At an atom, scalar evaluation returns the number 1, whatever the mass and whatever
the density around it (segments.py:1069-1070 with 679-681). -/
theorem C03_eval_scalar_atom {eps : K} (he : 0 ≤ eps) {l : PF K} (hl : PF.WF eps l) (x m : K)
    (h : .dirac x m ∈ l) : PF.evalScalar l x = some 1 := by
  obtain ⟨l₁, l₂, rfl⟩ := List.append_of_mem h
  have hc := wf_append hl
  have far : ∀ y ∈ l₁, ¬ (y.isDirac = true ∧ y.lo = .fin x) := by
    rintro y hy ⟨h₁, h₂⟩
    have hlo := hc.2.2 y hy _ (List.mem_cons_self)
    cases y <;> simp [Seg.isDirac] at h₁
    simp only [Seg.lo, Ext.fin_inj] at h₂
    subst h₂
    have := hlo.2 _ _ _ _ rfl rfl
    simp at this
    exact absurd this (not_lt.2 he)
  have hf := findSegment_mid (x := x) hl (fun y hy => ⟨by
      have := (hc.2.2 y hy _ (List.mem_cons_self)).1
      simpa [Seg.lo] using this, far y hy⟩) (by
      rintro y hy ⟨h₁, h₂⟩
      rcases List.mem_cons.1 hy with rfl | hy
      · exact h₂ ⟨rfl, rfl⟩
      · have hlo := (List.pairwise_cons.1 hc.2.1.sorted).1 y hy
        have hlt := hlo.lt he (hl.seg (.dirac x m) (by simp)) (hl.seg y (by simp [hy]))
        have h₃ := hlo.1
        have h₄ := Seg.lo_le_hi (hl.seg y (by simp [hy]))
        rw [Seg.lt_iff] at hlt
        simp only [Seg.lo, Seg.hi] at hlt h₃
        have e₁ : y.hi = .fin x := le_antisymm h₁ (h₃.trans h₄)
        have e₂ : y.lo = .fin x := le_antisymm (h₄.trans h₁) h₃
        change (_ ≤ y.lo ∧ _ < y.hi) ∨ (_ < y.lo ∧ _ ≤ y.hi) at hlt
        rw [e₁, e₂] at hlt
        simp at hlt)
  have hif : (if l₁ = [] then
      (if (Seg.dirac x m).lo ≤ .fin x ∧ .fin x ≤ (Seg.dirac x m).hi then some (Seg.dirac x m) else none)
      else some (Seg.dirac x m)) = some (Seg.dirac x m) := by
    simp [Seg.lo, Seg.hi]
  rw [hif] at hf
  unfold PF.evalScalar
  rw [hf]
  simp [Seg.isDirac, Seg.call]

/-- the sample function is well formed and has no gap on `[0,2)` -/
example : PF.evalScalar (K := ℚ) [.minf 0 (fun _ => 0), .const 0 1 (1/2), .const 1 2 (1/2)] (3/2)
    = some (1/2) := by decide +kernel

/-- The full statement of C03 for scalars and arrays. -/
def C03_full (eps : ℚ) : Prop :=
  ∀ l : PF ℚ, PF.WF eps l → l ≠ [] → ∀ x : ℚ, PF.evalScalar l x = some (PF.evalVec l x)

/-- **C03 fails in a gap**: between two pieces, scalar evaluation extrapolates the piece to the right
(here 1/2) while array evaluation gives 0. -/
theorem C03_violated_in_gap : ¬ C03_full (1/1000) := by
  intro h
  have := h [.const 0 1 (1/2), .const 2 3 (1/2)] ⟨by simp [Seg.WF]; norm_num, by
    simp [Seg.LeftOf, Seg.lo, Seg.hi]⟩ (by simp) (3/2)
  revert this
  decide +kernel

/-- The violation is general: at every point strictly inside a gap after the first piece, the scalar value is
the right neighbour's function extrapolated. -/
theorem C03_gap_value {eps : K} {l₁ l₂ : PF K} {t : Seg K} (hl : PF.WF eps (l₁ ++ t :: l₂))
    (hne : l₁ ≠ []) (x : K) (h₁ : ∀ s ∈ l₁, s.hi < .fin x) (h₂ : .fin x < t.lo)
    (ht : t.isDirac = false) : PF.evalScalar (l₁ ++ t :: l₂) x = some (t.fn x) := by
  have hc := wf_append hl
  have hf := findSegment_mid (x := x) hl (fun y hy => ⟨(h₁ y hy).le, by
      rintro ⟨-, h⟩
      have h' := Seg.lo_le_hi (hl.seg y (by simp [hy]))
      rw [h] at h'
      exact absurd (h'.trans_lt (h₁ y hy)) (lt_irrefl _)⟩) (by
      rintro y hy ⟨h, -⟩
      rcases List.mem_cons.1 hy with rfl | hy
      · have := Seg.lo_le_hi (hl.seg y (by simp))
        exact absurd (h₂.trans_le (this.trans h)) (lt_irrefl _)
      · have h₃ := ((List.pairwise_cons.1 hc.2.1.sorted).1 y hy).1
        have h₄ := Seg.lo_le_hi (hl.seg y (by simp [hy]))
        have h₅ := Seg.lo_le_hi (hl.seg t (by simp))
        exact absurd (h₂.trans_le (h₅.trans (h₃.trans (h₄.trans h)))) (lt_irrefl _))
  unfold PF.evalScalar
  rw [hf]
  simp [hne, ht]

/-! ## C56 -/

/-- **C56.** `isNonneg` answers true exactly when no continuous piece reaches below zero and no
atom sits at or below zero. -/
theorem C56_isNonneg_iff (l : PF K) : PF.isNonneg l = true ↔
    (∀ s ∈ l, s.isDirac = false → (.fin 0 ≤ s.lo)) ∧ (∀ a m, .dirac a m ∈ l → 0 < a) := by
  unfold PF.isNonneg
  rw [List.all_eq_true]
  constructor
  · intro h
    constructor
    · intro s hs hd
      have := h s hs
      simpa [hd] using this
    · intro a m hm
      have := h _ hm
      simpa [Seg.isDirac, Seg.lo] using this
  · rintro ⟨h₁, h₂⟩ s hs
    by_cases hd : s.isDirac = true
    · cases s <;> simp [Seg.isDirac] at hd
      simpa [Seg.isDirac, Seg.lo] using h₂ _ _ hs
    · have := h₁ s hs (by simpa using hd)
      simpa [hd] using this

/-- A nonnegative function has no value and no mass at negative numbers (what `log` and fractional
powers rely on). -/
theorem C56_no_negative_part {l : PF K} (h : PF.isNonneg l = true) (x : K) (hx : x < 0) :
    l.val x = 0 ∧ l.massAt x = 0 := by
  obtain ⟨h₁, h₂⟩ := (C56_isNonneg_iff l).1 h
  constructor
  · unfold PF.val
    rw [List.sum_eq_zero]
    intro y hy
    obtain ⟨s, hs, rfl⟩ := List.mem_map.1 hy
    unfold Seg.val
    rw [if_neg]
    rintro ⟨hd, ha, -⟩
    have := (h₁ s hs hd).trans ha
    simp only [Ext.fin_le_fin] at this
    exact absurd hx (not_lt.2 this)
  · unfold PF.massAt
    rw [List.sum_eq_zero]
    intro y hy
    obtain ⟨s, hs, rfl⟩ := List.mem_map.1 hy
    cases s <;> simp [Seg.massAt]
    rename_i a m
    rintro rfl
    exact absurd (h₂ _ _ hs) (not_lt.2 hx.le)

example : PF.isNonneg (K := ℚ) [.const 0 1 (1/2), .dirac 1 (1/2)] = true := by decide +kernel
example : PF.isNonneg (K := ℚ) [.dirac 0 1] = false := by decide +kernel

end Pacal
