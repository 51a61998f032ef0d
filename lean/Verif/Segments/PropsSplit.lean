import Verif.Segments.Op
import Mathlib.Algebra.Order.Field.Rat
import Mathlib.Data.Rat.Defs

/-!
# Properties C04, C05, C06

C04 splitting, C05 restriction, C06 arithmetic of piecewise functions.
Definitions used in the statements: model (`Verif.Segments.Model`) and specification
(`Verif.Segments.Spec`).  Equality of the measures after splitting is `C04_law` in
`Verif.Law.PropsLaw`.
-/

set_option linter.unusedSectionVars false

namespace Pacal
variable {K : Type*} [Field K] [LinearOrder K] [IsStrictOrderedRing K]

/-! ## C04 -/

/-- **C04.** Splitting a piecewise function at increasing points succeeds; the result is again well
formed, has the same values everywhere and the same atoms, none of its pieces contains a split point in
its interior. -/
theorem C04_split {eps : K} (he : 0 ≤ eps) (points : List K) (hp : points.Pairwise (· < ·))
    (l : PF K) (hl : PF.WF eps l) :
    ∃ r, PF.splitByPoints eps l points = some r ∧ PF.WF eps r ∧
      (∀ x, r.val x = l.val x) ∧ PF.diracs r = PF.diracs l ∧ (∀ x, r.massAt x = l.massAt x) ∧
      ∀ p ∈ points, ∀ s ∈ r, ¬ (s.lo < .fin p ∧ .fin p < s.hi) := by
  refine ⟨_, splitByPoints_eq he hp hl, split_wf hp hl, fun x => (split_val hp hl x).1,
    split_diracs hp hl, fun x => (split_val hp hl x).2, ?_⟩
  intro p hpp t ht
  obtain ⟨s, hs, hts⟩ := List.mem_flatMap.1 ht
  exact (splitSeg_ok eps hp (hl.seg s hs)).cut p hpp t hts

/-- **C04.** Every piece of the split function carries the same function, unchanged, as the piece it was
cut from, and lies within it. -/
theorem C04_pieces {eps : K} (he : 0 ≤ eps) (points : List K) (hp : points.Pairwise (· < ·))
    (l : PF K) (hl : PF.WF eps l) (r : PF K) (hr : PF.splitByPoints eps l points = some r) :
    ∀ t ∈ r, ∃ s ∈ l, t.fn = s.fn ∧ s.lo ≤ t.lo ∧ t.hi ≤ s.hi := by
  rw [splitByPoints_eq he hp hl] at hr
  cases hr
  intro t ht
  obtain ⟨s, hs, hts⟩ := List.mem_flatMap.1 ht
  have := splitSeg_ok eps hp (hl.seg s hs)
  exact ⟨s, hs, this.fn t hts, this.lo t hts, this.hi t hts⟩

/-- the poles of the pieces of a finite segment cut at points strictly inside it -/
theorem splitFin_poles (pole : Pole) (a₀ b₀ : K) (f : K → K) : ∀ (ps : List K) (a : K),
    a₀ ≤ a → (a :: ps).Pairwise (· < ·) → (∀ p ∈ ps, p < b₀) → ∀ t ∈ PF.splitFin pole a₀ b₀ f a ps,
      (t.hasLeftPole = true ↔ pole = .left ∧ t.lo = .fin a₀) ∧
      (t.hasRightPole = true ↔ pole = .right ∧ t.hi = .fin b₀) := by
  intro ps
  induction ps with
  | nil =>
    intro a _ _ _ t ht
    simp only [PF.splitFin, List.mem_singleton] at ht
    subst ht
    cases pole <;> simp [Seg.hasLeftPole, Seg.hasRightPole, Seg.lo, Seg.hi]
    · by_cases h : a = a₀ <;> simp [h]
  | cons p ps ih =>
    intro a ha hs hlt t ht
    rw [List.pairwise_cons] at hs
    simp only [PF.splitFin, List.mem_cons] at ht
    rcases ht with rfl | ht
    · have hp : p ≠ b₀ := (hlt p (by simp)).ne
      cases pole <;> simp [Seg.hasLeftPole, Seg.hasRightPole, Seg.lo, Seg.hi, hp]
      · by_cases h : a = a₀ <;> simp [h]
    · exact ih p (ha.trans (hs.1 p (by simp)).le) hs.2 (fun q hq => hlt q (by simp [hq])) t ht

theorem splitFin_head_lo {pole : Pole} {a₀ b₀ : K} {f : K → K} {ps : List K} {a : K} :
    ∀ t ∈ PF.splitFin pole a₀ b₀ f a ps, pole = .none → t.hasLeftPole = false ∧ t.hasRightPole = false := by
  induction ps generalizing a with
  | nil => rintro t ht rfl; simp [PF.splitFin] at ht; subst ht; simp [Seg.hasLeftPole, Seg.hasRightPole]
  | cons p ps ih =>
    rintro t ht rfl
    simp only [PF.splitFin, List.mem_cons] at ht
    rcases ht with rfl | ht
    · simp [Seg.hasLeftPole, Seg.hasRightPole]
    · exact ih t ht rfl

/-- **C04.** A pole stays where it was: a piece cut from `s` has a left (right) pole exactly when `s` has
one and the piece touches that end. -/
theorem C04_poles (points : List K) (hp : points.Pairwise (· < ·)) (s t : Seg K)
    (ht : t ∈ PF.splitSeg points s) :
    (t.hasLeftPole = true ↔ s.hasLeftPole = true ∧ t.lo = s.lo) ∧
    (t.hasRightPole = true ↔ s.hasRightPole = true ∧ t.hi = s.hi) := by
  have hpl : ∀ (f : K → K) (ps : List K) (a : K), ∀ t ∈ PF.splitPInf f a ps,
      t.hasLeftPole = false ∧ t.hasRightPole = false := by
    intro f ps
    induction ps with
    | nil => intro a t ht; simp [PF.splitPInf] at ht; subst ht; simp [Seg.hasLeftPole, Seg.hasRightPole]
    | cons p ps ih =>
      intro a t ht
      simp only [PF.splitPInf, List.mem_cons] at ht
      rcases ht with rfl | ht
      · simp [Seg.hasLeftPole, Seg.hasRightPole]
      · exact ih p t ht
  cases s with
  | fin pole a b f =>
    have := splitFin_poles pole a b f (points.filter (fun p => a < p ∧ p < b)) a le_rfl
      (List.pairwise_cons.2 ⟨fun p hp => by simp at hp; exact hp.2.1, hp.filter _⟩)
      (fun p hp => by simp at hp; exact hp.2.2) t ht
    cases pole <;> simpa [Seg.hasLeftPole, Seg.hasRightPole, Seg.lo, Seg.hi] using this
  | const a b c =>
    have := splitFin_head_lo t ht rfl
    rw [this.1, this.2]; simp [Seg.hasLeftPole, Seg.hasRightPole]
  | minf b f =>
    simp only [PF.splitSeg] at ht
    split at ht
    · simp at ht; subst ht; simp [Seg.hasLeftPole, Seg.hasRightPole]
    · rcases List.mem_cons.1 ht with rfl | ht
      · simp [Seg.hasLeftPole, Seg.hasRightPole]
      · have := splitFin_head_lo t ht rfl
        rw [this.1, this.2]; simp [Seg.hasLeftPole, Seg.hasRightPole]
  | pinf a f =>
    have := hpl _ _ _ t ht
    rw [this.1, this.2]; simp [Seg.hasLeftPole, Seg.hasRightPole]
  | dirac a m =>
    simp [PF.splitSeg] at ht; subst ht; simp [Seg.hasLeftPole, Seg.hasRightPole]

example : (PF.splitSeg [1] (.fin .left (0 : ℚ) 2 id)).map (fun t => (t.hasLeftPole, t.lo)) =
    [(true, .fin 0), (false, .fin 1)] := by decide +kernel

/-- left tail, piece with a left pole and constant piece around an atom, right tail -/
def splitSample : PF ℚ :=
  [.minf 0 (fun x => x), .fin .left 0 2 (fun x => x * x), .dirac 2 (1/2), .const 2 3 7,
   .pinf 3 (fun x => x + 1)]

theorem splitSample_wf : PF.WF (1/100 : ℚ) splitSample := by
  refine ⟨?_, ?_⟩
  · simp [splitSample, Seg.WF]; norm_num
  · simp [splitSample, Seg.LeftOf, Seg.lo, Seg.hi]; norm_num

/-- The hypotheses of `C04_split` hold for a function with all kinds of pieces and five split points. -/
example : ∃ r, PF.splitByPoints (1/100 : ℚ) splitSample [-1, 1, 2, 5/2, 4] = some r ∧
    (∀ x, r.val x = splitSample.val x) ∧ PF.diracs r = PF.diracs splitSample := by
  obtain ⟨r, h₁, _, h₂, h₃, _⟩ := C04_split (eps := (1/100 : ℚ)) (by norm_num) [-1, 1, 2, 5/2, 4]
    (by decide +kernel) splitSample splitSample_wf
  exact ⟨r, h₁, h₂, h₃⟩

/-! ## C05 -/

/-- **C05.** Restriction to `[a, b)` (either end may be infinite) succeeds and keeps exactly the values
and atoms inside. -/
theorem C05_restrict {eps : K} (he : 0 ≤ eps) (l : PF K) (hl : PF.WF eps l) (a b : Ext K)
    (hab : a < b) :
    ∃ r, PF.restrictToInterval eps l a b = some r ∧ PF.WF eps r ∧
      (∀ x, r.val x = if a ≤ .fin x ∧ .fin x < b then l.val x else 0) ∧
      (∀ x, r.massAt x = if a ≤ .fin x ∧ .fin x < b then l.massAt x else 0) ∧
      (∀ s ∈ r, a ≤ s.lo ∧ s.hi ≤ b) :=
  restrict_spec he hl hab

example : ∃ r, PF.restrictToInterval (1/100 : ℚ) splitSample (.fin 1) (.fin 4) = some r ∧
    r.val (3/2) = 9/4 ∧ r.val (1/2) = 0 ∧ r.massAt 2 = 1/2 := by
  obtain ⟨r, h₁, _, h₂, h₃, _⟩ := C05_restrict (eps := (1/100 : ℚ)) (by norm_num) splitSample
    splitSample_wf (.fin 1) (.fin 4) (by simp)
  refine ⟨r, h₁, ?_, ?_, ?_⟩
  · rw [h₂]; decide +kernel
  · rw [h₂]; decide +kernel
  · rw [h₃]; decide +kernel

/-! ## C06 -/

/-- atoms of two functions are at the same places or further apart than the merging tolerance -/
def PF.AtomsApart (eps : K) (f g : PF K) : Prop :=
  ∀ a m a' m', Seg.dirac a m ∈ f → Seg.dirac a' m' ∈ g → a = a' ∨ eps < |a - a'|

/-- The full claim C06 for one operation: the result exists, its values are the pointwise results and
the mass it puts on every point is the result of the operation on the masses. -/
def C06_full (eps : K) (op : K → K → K) : Prop :=
  ∀ f g : PF K, PF.WF eps f → PF.WF eps g → PF.AtomsApart eps f g →
    ∃ r, PF.operation eps op f g = some r ∧ PF.WF eps r ∧
      (∀ x, r.val x = op (f.val x) (g.val x)) ∧
      (∀ x, r.massAt x = op (f.massAt x) (g.massAt x))

/-- **C06 for `+`.** The full claim holds for sums. -/
theorem C06_add {eps : K} (he : 0 ≤ eps) : C06_full eps (fun x y : K => x + y) := by
  intro f g hf hg hfg
  obtain ⟨r, h₁, h₂, h₃, h₄⟩ := operation_ok he (op := fun x y : K => x + y) (by simp) hf hg hfg
  refine ⟨r, h₁, h₂, h₃, ?_⟩
  intro x
  rw [massAt_eq_getDirac he h₂, massAt_eq_getDirac he hf, massAt_eq_getDirac he hg, h₄ x]
  cases PF.getDirac x f <;> cases PF.getDirac x g <;> simp [combMass]

/-- **C06 for any operation with `op 0 0 = 0` (difference, product, quotient by convention), partial.**
The continuous part is the pointwise result everywhere; an atom present in both functions is combined by
the operation; an atom present in only one of them keeps its own mass (which is what the sum requires, but
not what the difference and product require). Missing with respect to `C06_full`: atoms in one operand. -/
theorem C06_operation_partial {eps : K} (he : 0 ≤ eps) {op : K → K → K} (h0 : op 0 0 = 0)
    (f g : PF K) (hf : PF.WF eps f) (hg : PF.WF eps g) (hfg : PF.AtomsApart eps f g) :
    ∃ r, PF.operation eps op f g = some r ∧ PF.WF eps r ∧
      (∀ x, r.val x = op (f.val x) (g.val x)) ∧
      (∀ x m m', .dirac x m ∈ f → .dirac x m' ∈ g → r.massAt x = op m m') ∧
      (∀ x m, .dirac x m ∈ f → (∀ m', .dirac x m' ∉ g) → r.massAt x = m) ∧
      (∀ x m, .dirac x m ∈ g → (∀ m', .dirac x m' ∉ f) → r.massAt x = m) ∧
      (∀ x, (∀ m, .dirac x m ∉ f) → (∀ m, .dirac x m ∉ g) → r.massAt x = 0) := by
  obtain ⟨r, h₁, h₂, h₃, h₄⟩ := operation_ok he h0 hf hg hfg
  refine ⟨r, h₁, h₂, h₃, ?_, ?_, ?_, ?_⟩
  · intro x m m' hm hm'
    rw [massAt_eq_getDirac he h₂, h₄, (getDirac_iff he hf).2 hm, (getDirac_iff he hg).2 hm']
    rfl
  · intro x m hm hm'
    rw [massAt_eq_getDirac he h₂, h₄, (getDirac_iff he hf).2 hm, getDirac_none.2 hm']
    rfl
  · intro x m hm hm'
    rw [massAt_eq_getDirac he h₂, h₄, (getDirac_iff he hg).2 hm, getDirac_none.2 hm']
    rfl
  · intro x hm hm'
    rw [massAt_eq_getDirac he h₂, h₄, getDirac_none.2 hm, getDirac_none.2 hm']
    rfl

/-- Without atoms the full claim holds for every operation with `op 0 0 = 0`. -/
theorem C06_operation_continuous {eps : K} (he : 0 ≤ eps) {op : K → K → K} (h0 : op 0 0 = 0)
    (f g : PF K) (hf : PF.WF eps f) (hg : PF.WF eps g) (cf : ∀ s ∈ f, s.isDirac = false)
    (cg : ∀ s ∈ g, s.isDirac = false) :
    ∃ r, PF.operation eps op f g = some r ∧ PF.WF eps r ∧
      (∀ x, r.val x = op (f.val x) (g.val x)) ∧ ∀ s ∈ r, s.isDirac = false := by
  have nf : ∀ x m, Seg.dirac x m ∉ f := fun x m h => by simpa [Seg.isDirac] using cf _ h
  have ng : ∀ x m, Seg.dirac x m ∉ g := fun x m h => by simpa [Seg.isDirac] using cg _ h
  obtain ⟨r, h₁, h₂, h₃, h₄⟩ := operation_ok he h0 hf hg (fun a m _ _ h => absurd h (nf a m))
  refine ⟨r, h₁, h₂, h₃, ?_⟩
  intro s hs
  cases s with
  | dirac x m =>
    have := (getDirac_iff he h₂).2 hs
    rw [h₄ x, getDirac_none.2 (nf x), getDirac_none.2 (ng x)] at this
    cases this
  | _ => rfl

/-- **C06 violated for `-`.** `f - g` with an atom of mass 1 only in `g` has mass `+1` there instead of
`-1` (segments.py:1664-1665). -/
theorem C06_violated_sub : ¬ C06_full (1/100 : ℚ) (fun x y => x - y) := by
  intro h
  obtain ⟨r, h₁, _, _, h₂⟩ := h [] [.dirac 0 1] ⟨by simp, by simp⟩ ⟨by simp [Seg.WF], by simp⟩
    (by intro a m a' m' h; simp at h)
  have hr : PF.operation (1/100 : ℚ) (fun x y => x - y) [] [.dirac 0 1] = some [.dirac 0 1] := rfl
  rw [hr] at h₁
  cases h₁
  have := h₂ 0
  simp [PF.massAt, Seg.massAt] at this
  norm_num at this

/-- **C06 violated for `*`.** The product with the empty function keeps the atom instead of dropping it. -/
theorem C06_violated_mul : ¬ C06_full (1/100 : ℚ) (fun x y => x * y) := by
  intro h
  obtain ⟨r, h₁, _, _, h₂⟩ := h [] [.dirac 0 1] ⟨by simp, by simp⟩ ⟨by simp [Seg.WF], by simp⟩
    (by intro a m a' m' h; simp at h)
  have hr : PF.operation (1/100 : ℚ) (fun x y => x * y) [] [.dirac 0 1] = some [.dirac 0 1] := rfl
  rw [hr] at h₁
  cases h₁
  have := h₂ 0
  simp [PF.massAt, Seg.massAt] at this

/-- **C06, function and number.** `_roperation__` with any operation: at a covered point the value is the
operation applied to the value, elsewhere it stays 0, and the mass of every atom is transformed. -/
theorem C06_roperation {eps : K} (he : 0 ≤ eps) (op : K → K → K) (l : PF K) (hl : PF.WF eps l)
    (r : K) :
    ∃ q, PF.roperation eps op l r = some q ∧ PF.WF eps q ∧
      (∀ x, (∃ s ∈ l, s.isDirac = false ∧ s.lo ≤ .fin x ∧ .fin x < s.hi) →
        q.val x = op (l.val x) r) ∧
      (∀ x, (¬ ∃ s ∈ l, s.isDirac = false ∧ s.lo ≤ .fin x ∧ .fin x < s.hi) → q.val x = 0) ∧
      (∀ x m, .dirac x m ∈ l → q.massAt x = op m r) ∧
      (∀ x, (∀ m, .dirac x m ∉ l) → q.massAt x = 0) := by
  let F : Seg K → Seg K := fun s =>
    match s with
    | .minf b f => .minf b (fun x => op (f x) r)
    | .pinf a f => .pinf a (fun x => op (f x) r)
    | .fin pole a b f => .fin pole a b (fun x => op (f x) r)
    | .const a b c => .fin .none a b (fun _ => op c r)
    | .dirac a m => .dirac a (op m r)
  have hlo : ∀ s, (F s).lo = s.lo := by intro s; cases s <;> rfl
  have hhi : ∀ s, (F s).hi = s.hi := by intro s; cases s <;> rfl
  have hdir : ∀ s, (F s).isDirac = s.isDirac := by intro s; cases s <;> rfl
  have hfn : ∀ s, s.isDirac = false → ∀ x, (F s).fn x = op (s.fn x) r := by
    intro s hs x; cases s <;> rfl
  have hDD : ∀ s a m, F s = .dirac a m → ∃ n, s = .dirac a n ∧ m = op n r := by
    intro s a m h
    cases s with
    | dirac b n => cases h; exact ⟨n, rfl, rfl⟩
    | _ => cases h
  have hw : PF.WF eps (l.map F) := by
    refine ⟨?_, ?_⟩
    · intro s hs
      obtain ⟨t, ht, rfl⟩ := List.mem_map.1 hs
      have := hl.seg t ht
      cases t <;> exact this
    · rw [List.pairwise_map]
      refine hl.sorted.imp ?_
      intro s t h
      refine ⟨by rw [hhi, hlo]; exact h.1, ?_⟩
      intro a m a' m' e e'
      obtain ⟨n, h₁, _⟩ := hDD s a m e
      obtain ⟨n', h₂, _⟩ := hDD t a' m' e'
      exact h.2 a n a' n' h₁ h₂
  refine ⟨l.map F, ?_, hw, ?_, ?_, ?_, ?_⟩
  · exact addAll_self he hw
  · rintro x ⟨s, hs, hd, hx⟩
    obtain ⟨l₁, l₂, rfl⟩ := List.append_of_mem hs
    rw [val_split hl hd hx.1 hx.2]
    rw [List.map_append, List.map_cons] at hw ⊢
    rw [val_split hw (by rw [hdir]; exact hd) (by rw [hlo]; exact hx.1) (by rw [hhi]; exact hx.2), hfn s hd]
  · intro x hx
    apply val_eq_zero
    intro s hs hd h
    obtain ⟨t, ht, rfl⟩ := List.mem_map.1 hs
    rw [hdir] at hd
    rw [hlo, hhi] at h
    exact hx ⟨t, ht, hd, h⟩
  · intro x m hm
    rw [massAt_eq_getDirac he hw, (getDirac_iff he hw).2 (List.mem_map.2 ⟨_, hm, rfl⟩)]
    rfl
  · intro x hx
    apply massAt_zero
    intro m hm
    obtain ⟨t, ht, e⟩ := List.mem_map.1 hm
    obtain ⟨n, rfl, _⟩ := hDD t x m e
    exact hx n ht

/-- **C06, function times number**: the product is right at every point and for every atom. -/
theorem C06_mul_real {eps : K} (he : 0 ≤ eps) (l : PF K) (hl : PF.WF eps l) (r : K) :
    ∃ q, PF.mulReal eps l r = some q ∧ PF.WF eps q ∧ (∀ x, q.val x = l.val x * r) ∧
      ∀ x, q.massAt x = l.massAt x * r := by
  obtain ⟨q, h₁, h₂, h₃, h₄, h₅, h₆⟩ := C06_roperation he (· * ·) l hl r
  refine ⟨q, h₁, h₂, ?_, ?_⟩
  · intro x
    by_cases hx : ∃ s ∈ l, s.isDirac = false ∧ s.lo ≤ .fin x ∧ .fin x < s.hi
    · exact h₃ x hx
    · rw [h₄ x hx, val_eq_zero (l := l) (fun s hs hd h => hx ⟨s, hs, hd, h⟩), zero_mul]
  · intro x
    by_cases hx : ∃ m, Seg.dirac x m ∈ l
    · obtain ⟨m, hm⟩ := hx
      rw [h₅ x m hm, massAt_eq_getDirac he hl, (getDirac_iff he hl).2 hm]; rfl
    · push Not at hx
      rw [h₆ x hx, massAt_zero hx, zero_mul]

/-- **C06, finding.** `f - r` for a number `r` computes `r - f` (segments.py:1579-1580): for the constant
function 5 on `[0, 1)` the "difference" with 2 is `-3`. -/
theorem C06_violated_sub_real :
    ∃ q, PF.subReal (1/100 : ℚ) [.const 0 1 5] 2 = some q ∧ q.val (1/2) = -3 ∧
      PF.val [Seg.const (0 : ℚ) 1 5] (1/2) - 2 = 3 := by
  refine ⟨[.fin .none 0 1 (fun _ => 2 - 5)], rfl, ?_, ?_⟩ <;> decide +kernel

/-- Hypotheses of the C06 theorems: two overlapping functions with a common atom and separate atoms. -/
example : ∃ r, PF.operation (1/100 : ℚ) (fun x y => x + y) splitSample
      [.const (-1) 1 3, .dirac 1 (1/4), .dirac 2 (1/4)] = some r ∧
    r.val (1/2) = 1/4 + 3 ∧ r.massAt 2 = 3/4 ∧ r.massAt 1 = 1/4 := by
  obtain ⟨r, h₁, _, h₂, h₃⟩ := C06_add (eps := (1/100 : ℚ)) (by norm_num) splitSample
    [.const (-1) 1 3, .dirac 1 (1/4), .dirac 2 (1/4)] splitSample_wf
    ⟨by simp [Seg.WF], by
      simp [Seg.LeftOf, Seg.lo, Seg.hi]
      rintro a m a' m' rfl _ rfl _
      norm_num⟩ (by
      intro a m a' m' h h'
      simp [splitSample] at h h'
      rcases h' with ⟨rfl, _⟩ | ⟨rfl, _⟩ <;> simp [h.1]; norm_num)
  refine ⟨r, h₁, ?_, ?_, ?_⟩
  · rw [h₂]; decide +kernel
  · rw [h₃]; decide +kernel
  · rw [h₃]; decide +kernel

end Pacal
