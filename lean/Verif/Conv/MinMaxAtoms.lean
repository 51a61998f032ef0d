import Verif.Conv.Positions
import Verif.Conv.MinMaxPair
import Verif.Segments.Op

/-! The atoms of a minimum or maximum. -/

namespace Pacal
namespace Conv
open MeasureTheory Set

section
variable {K : Type*} [Field K] [LinearOrder K] [IsStrictOrderedRing K]

theorem compat_exact {eps : K} {a m a' m' : K} (h : Seg.Compat eps (.dirac a m) (.dirac a' m')) : a = a' ∨ eps < |a - a'| := by
  rcases h with (h | h) | ⟨b, n, n', h, h'⟩
  · exact .inr (h.2 _ _ _ _ rfl rfl)
  · exact .inr (abs_sub_comm a' a ▸ h.2 _ _ _ _ rfl rfl)
  · cases h; cases h'; exact .inl rfl

theorem merge_bump {eps : K} (he : 0 ≤ eps) {a m : K} : ∀ {l : PF K}, (∀ t ∈ l, Seg.Compat eps (.dirac a m) t) →
    (PF.getDirac a l).isNone = false → PF.mergeDirac eps a m l = some (bumpDirac a m l)
  | [], _, h => by simp [PF.getDirac] at h
  | .dirac a' m' :: l, hc, h => by
    rw [PF.mergeDirac, bumpDirac]
    rcases compat_exact (hc (.dirac a' m') (by simp)) with rfl | hne
    · rw [if_pos (by simpa using he), if_pos rfl]
    · have hne' : a' ≠ a := by rintro rfl; simp at hne; exact absurd hne (not_lt.2 he)
      rw [PF.getDirac, if_neg hne'] at h
      rw [if_neg (not_le.2 hne), if_neg hne', merge_bump he (fun t ht => hc t (by simp [ht])) h]
      rfl
  | .fin .. :: l, hc, h => by
    rw [PF.getDirac] at h
    · rw [PF.mergeDirac, merge_bump he (fun t ht => hc t (by simp [ht])) h] <;> simp [bumpDirac]
    · simp
  | .const .. :: l, hc, h => by
    rw [PF.getDirac] at h
    · rw [PF.mergeDirac, merge_bump he (fun t ht => hc t (by simp [ht])) h] <;> simp [bumpDirac]
    · simp
  | .minf .. :: l, hc, h => by
    rw [PF.getDirac] at h
    · rw [PF.mergeDirac, merge_bump he (fun t ht => hc t (by simp [ht])) h] <;> simp [bumpDirac]
    · simp
  | .pinf .. :: l, hc, h => by
    rw [PF.getDirac] at h
    · rw [PF.mergeDirac, merge_bump he (fun t ht => hc t (by simp [ht])) h] <;> simp [bumpDirac]
    · simp

/-- `add_diracs` does what adding the atoms one by one does -/
theorem addDiracs_eq {eps : K} (he : 0 ≤ eps) : ∀ {ds l : PF K}, PF.WF eps l → (∀ s ∈ ds, ∃ a m, s = .dirac a m) →
    ds.Pairwise (Seg.Compat eps) → (∀ s ∈ ds, ∀ t ∈ l, Seg.Compat eps s t) → addDiracs eps l ds = PF.addAll eps l ds
  | [], l, _, _, _, _ => rfl
  | s :: ds, l, hl, hds, hp, hc => by
    obtain ⟨a, m, rfl⟩ := hds s (by simp)
    rw [List.pairwise_cons] at hp
    have hcs := hc _ (List.mem_cons_self ..)
    obtain ⟨r, r1, r2, -, -, r5⟩ := addSegment_compat he (s := .dirac a m) trivial hl hcs
    have ih : addDiracs eps r ds = PF.addAll eps r ds := addDiracs_eq he r2 (fun s hs => hds s (by simp [hs])) hp.2 (by
      intro u hu t ht
      rcases r5 t ht with h | rfl | ⟨b, n, n', rfl, h⟩
      · exact hc u (by simp [hu]) t h
      · exact (hp.1 u hu).symm
      · exact compat_dirac (hc u (by simp [hu]) _ h))
    rw [PF.addAll, r1, Option.bind_some, ← ih, addDiracs]
    cases hg : (PF.getDirac a l).isNone
    · have := merge_bump he hcs hg
      rw [PF.addSegment, this] at r1
      simp only [Option.some.injEq] at r1
      rw [if_neg (by simp), r1]
    · rw [if_pos rfl, r1, Option.bind_some]

end

/-- nonnegative atoms at places in `S` -/
def AtomList (S : Set ℝ) (l : PF ℝ) : Prop := ∀ s ∈ l, ∃ a m, s = .dirac a m ∧ 0 ≤ m ∧ a ∈ S

/-- equal or farther than `eps` apart -/
def Sep (eps : ℝ) (S : Set ℝ) : Prop := ∀ a ∈ S, ∀ b ∈ S, a = b ∨ eps < |a - b|

variable {eps : ℝ} {S : Set ℝ}

theorem sep_compat (h : Sep eps S) {a m b n : ℝ} (ha : a ∈ S) (hb : b ∈ S) : Seg.Compat eps (.dirac a m) (.dirac b n) := by
  rcases h a ha b hb with rfl | h
  · exact .inr ⟨_, _, _, rfl, rfl⟩
  · rcases le_total a b with hl | hl
    · refine .inl (.inl ⟨Breaks.fin_le.2 hl, ?_⟩)
      intro a m a' m' e1 e2
      cases e1; cases e2; exact h
    · refine .inl (.inr ⟨Breaks.fin_le.2 hl, ?_⟩)
      intro a m a' m' e1 e2
      cases e1; cases e2; rwa [abs_sub_comm]

theorem AtomList.compat (h : Sep eps S) {l l' : PF ℝ} (hl : AtomList S l) (hl' : AtomList S l') :
    ∀ s ∈ l, ∀ t ∈ l', Seg.Compat eps s t := by
  intro s hs t ht
  obtain ⟨a, m, rfl, -, ha⟩ := hl s hs
  obtain ⟨b, n, rfl, -, hb⟩ := hl' t ht
  exact sep_compat h ha hb

theorem AtomList.pairwise (h : Sep eps S) {l : PF ℝ} (hl : AtomList S l) : l.Pairwise (Seg.Compat eps) :=
  List.pairwise_of_forall_mem_list fun _ hs _ ht => hl.compat h hl _ hs _ ht

theorem AtomList.append {l l' : PF ℝ} (hl : AtomList S l) (hl' : AtomList S l') : AtomList S (l ++ l') := by
  intro s hs
  rcases List.mem_append.1 hs with h | h
  · exact hl s h
  · exact hl' s h

theorem addAll_atoms (he : 0 ≤ eps) (h : Sep eps S) {l : PF ℝ} (hl : AtomList S l) :
    ∃ r, PF.addAll eps [] l = some r ∧ PF.WF eps r ∧ AtomList S r ∧ PF.law r = PF.law l ∧ ∀ b, PF.At l b → PF.At r b := by
  obtain ⟨r, r1, r2, r3, r4, -, -, r7⟩ := addAll_law he (ss := l) (by
    intro s hs; obtain ⟨a, m, rfl, -⟩ := hl s hs; trivial) (hl.pairwise h) (by
    intro s hs; obtain ⟨a, m, rfl, hm, -⟩ := hl s hs; exact hm)
  refine ⟨r, r1, r2, ?_, r4, fun b hb => addAll_at he l [] r ⟨by simp, List.Pairwise.nil⟩ (by
    intro s hs; obtain ⟨a, m, rfl, -⟩ := hl s hs; trivial) (hl.pairwise h) (by simp) r1 b (.inr hb)⟩
  intro s hs
  have hd := r3 s hs
  rcases r7 s hs with h | ⟨a, m, m', rfl, h⟩
  · exact hl s h
  · obtain ⟨b, n, e, -, hb⟩ := hl _ h
    cases e
    exact ⟨a, m, rfl, hd, hb⟩

/-- two lists of atoms added up by `add_diracs` -/
theorem addDiracs_atoms (he : 0 ≤ eps) (h : Sep eps S) {l l' : PF ℝ} (hw : PF.WF eps l) (hl : AtomList S l) (hl' : AtomList S l') :
    ∃ r, addDiracs eps l l' = some r ∧ PF.WF eps r ∧ AtomList S r ∧ PF.law r = PF.law l + PF.law l' ∧
      ∀ b, PF.At l b ∨ PF.At l' b → PF.At r b := by
  obtain ⟨r, r1, r2, r3, r4, r5⟩ := addAll_atoms he h (hl.append hl')
  refine ⟨r, ?_, r2, r3, by rw [r4, PF.law_append], ?_⟩
  swap
  · rintro b (⟨m, hb⟩ | ⟨m, hb⟩)
    · exact r5 b ⟨m, List.mem_append_left _ hb⟩
    · exact r5 b ⟨m, List.mem_append_right _ hb⟩
  rw [addAll_append, addAll_self he hw, Option.bind_some] at r1
  rw [addDiracs_eq he hw (fun s hs => by obtain ⟨a, m, e, -⟩ := hl' s hs; exact ⟨a, m, e⟩) (hl'.pairwise h) (hl'.compat h hl), r1]

/-! ### the law of the lists -/

theorem atomPart_density (a m : ℝ) (φ : ℝ → ENNReal) :
    (atomPart (.dirac a m)).withDensity φ = (ENNReal.ofReal m * φ a) • Measure.dirac a := by
  rw [atomPart, withDensity_smul_measure, dirac_withDensity, smul_smul]

theorem atomPart_not {s : Seg ℝ} (h : s.isDirac = false) : atomPart s = 0 := by
  cases s <;> first | rfl | simp [Seg.isDirac] at h

theorem law_singleton_not {s : Seg ℝ} (h : s.isDirac = false) (x : ℝ) : s.law {x} = 0 := by
  rw [den_law h]
  exact withDensity_absolutelyContinuous _ _ (by simp)

theorem eqAtom_comm (si sj : Seg ℝ) :
    (atomPart si).withDensity (fun x => sj.law {x}) = (atomPart sj).withDensity fun x => si.law {x} := by
  rcases isDirac_cases si with h | ⟨a, m, rfl⟩
  · rw [atomPart_not h, withDensity_zero_left]
    rw [show (fun x => si.law {x}) = fun _ => (0 : ENNReal) from funext fun x => law_singleton_not h x]
    simp [withDensity_zero]
  · rcases isDirac_cases sj with h | ⟨b, n, rfl⟩
    · rw [atomPart_not h, withDensity_zero_left]
      rw [show (fun x => sj.law {x}) = fun _ => (0 : ENNReal) from funext fun x => law_singleton_not h x]
      simp [withDensity_zero]
    · rw [atomPart_density, atomPart_density]
      simp only [Seg.law, Measure.smul_apply, Measure.dirac_apply' _ (measurableSet_singleton _), smul_eq_mul]
      by_cases hab : a = b
      · subst hab
        simp [mul_comm]
      · simp [hab, Ne.symm hab]

theorem sum_law_apply (l : PF ℝ) (A : Set ℝ) : (l.map fun s => s.law A).sum = PF.law l A := by
  induction l with
  | nil => simp [PF.law]
  | cons s l ih => rw [List.map_cons, List.sum_cons, ih, PF.law_cons, Measure.add_apply]

/-- summing over the other function -/
theorem sum_atomPart (s : Seg ℝ) (l : PF ℝ) (T : ℝ → Set ℝ) :
    (l.map fun t => (atomPart s).withDensity fun x => t.law (T x)).sum = (atomPart s).withDensity fun x => PF.law l (T x) := by
  rcases isDirac_cases s with h | ⟨a, m, rfl⟩
  · simp [atomPart_not h]
  · simp only [atomPart_density]
    rw [← sum_law_apply]
    induction l with
    | nil => simp
    | cons t l ih => rw [List.map_cons, List.sum_cons, ih, List.map_cons, List.sum_cons, mul_add, add_smul]

theorem sum2_swap {K M : Type*} [AddCommMonoid M] (f g : PF K) (k : Seg K → Seg K → M) :
    sum2 f g k = sum2 g f fun i j => k j i := by
  unfold sum2
  induction f with
  | nil => simp
  | cons s f ih =>
    rw [List.map_cons, List.sum_cons, ih, ← List.sum_map_add]
    simp

theorem sum2_tail (f g : PF ℝ) (T : ℝ → Set ℝ) :
    sum2 f g (fun i j => (atomPart i).withDensity fun x => j.law (T x)) =
      (f.map fun s => (atomPart s).withDensity fun x => PF.law g (T x)).sum := by
  unfold sum2
  congr 1
  exact List.map_congr_left fun s _ => sum_atomPart s g T

theorem sum2_tailAtoms (f g : PF ℝ) (T : ℝ → Set ℝ) :
    sum2 f g (tailAtoms T) = (f.map fun s => (atomPart s).withDensity fun x => PF.law g (T x)).sum +
      (g.map fun s => (atomPart s).withDensity fun x => PF.law f (T x)).sum +
      (g.map fun s => (atomPart s).withDensity fun x => PF.law f {x}).sum := by
  unfold tailAtoms
  rw [sum2_add, sum2_add, sum2_tail]
  congr 1
  · congr 1
    rw [sum2_swap, sum2_tail]
  · rw [sum2_swap, ← sum2_tail g f fun x => {x}]
    exact sum2_congr fun i _ j _ => eqAtom_comm j i

/-- an atom with the mass multiplied -/
def reMass (v : ℝ → Option ℝ) (s : Seg ℝ) : Option (Seg ℝ) :=
  match s with
  | .dirac a m => (v a).map fun c => .dirac a (m * c)
  | _ => none

theorem own_sep (he : 0 ≤ eps) {l : PF ℝ} (hl : PF.WF eps l) {a m b n : ℝ} (ha : Seg.dirac a m ∈ l) (hb : Seg.dirac b n ∈ l) :
    a = b ∨ eps < |a - b| := by
  have h := hl.sorted
  clear hl
  induction l with
  | nil => simp at ha
  | cons s l ih =>
    rw [List.pairwise_cons] at h
    rcases List.mem_cons.1 ha with rfl | ha
    · rcases List.mem_cons.1 hb with hb | hb
      · cases hb; exact .inl rfl
      · exact .inr ((h.1 _ hb).2 _ _ _ _ rfl rfl)
    · rcases List.mem_cons.1 hb with rfl | hb
      · have := (h.1 (.dirac a m) (by assumption)).2 b n a m rfl rfl
        exact .inr (abs_sub_comm b a ▸ this)
      · exact ih ha hb h.2

theorem filterMap_law {l : PF ℝ} (hd : PF.Dens l) {φ : ℝ → ENNReal} {v : ℝ → Option ℝ}
    (hv : ∀ a m, Seg.dirac a m ∈ l → ENNReal.ofReal ((v a).elim 0 id) = φ a)
    (h0 : ∀ a m c, Seg.dirac a m ∈ l → v a = some c → 0 ≤ c) :
    AtomList {a | ∃ m, Seg.dirac a m ∈ l} (l.filterMap (reMass v)) ∧
    PF.law (l.filterMap (reMass v)) = (l.map fun s => (atomPart s).withDensity φ).sum := by
  constructor
  · intro s hs
    obtain ⟨t, ht, e⟩ := List.mem_filterMap.1 hs
    cases t with
    | dirac a m =>
      obtain ⟨c, hc, rfl⟩ := Option.map_eq_some_iff.1 e
      exact ⟨a, m * c, rfl, mul_nonneg (hd _ ht) (h0 a m c ht hc), m, ht⟩
    | _ => simp [reMass] at e
  · induction l with
    | nil => simp [PF.law]
    | cons s l ih =>
      have ih := ih (PF.dens_cons.1 hd).2 (fun a m h => hv a m (by simp [h])) (fun a m c h => h0 a m c (by simp [h]))
      rw [List.map_cons, List.sum_cons, ← ih, List.filterMap_cons]
      rcases isDirac_cases s with h | ⟨a, m, rfl⟩
      · have : reMass v s = none := by cases s <;> first | rfl | simp [Seg.isDirac] at h
        rw [atomPart_not h, this]
        simp
      · have hva := hv a m (by simp)
        have hm : 0 ≤ m := hd _ (List.mem_cons_self ..)
        cases hc : v a with
        | none =>
          have : reMass v (.dirac a m) = none := by simp [reMass, hc]
          rw [hc] at hva
          rw [this, atomPart_density, ← hva]
          simp
        | some c =>
          have : reMass v (.dirac a m) = some (.dirac a (m * c)) := by simp [reMass, hc]
          rw [hc] at hva
          rw [this, atomPart_density, ← hva]
          dsimp only
          rw [PF.law_cons, ← ENNReal.ofReal_mul hm]
          rfl

theorem probDiracs_spec (he : 0 ≤ eps) {f g : PF ℝ} (hf : PF.WF eps f) (hg : PF.WF eps g) (hdf : PF.Dens f) (hdg : PF.Dens g)
    (hap : PF.AtomsApart eps f g) {T : ℝ → Set ℝ} {tail : PF ℝ → ℝ → ℝ}
    (h1 : ∀ a m, Seg.dirac a m ∈ f → tail g a = (PF.law g).real (T a))
    (h2 : ∀ a m, Seg.dirac a m ∈ g → tail f a = (PF.law f).real (T a)) :
    ∃ d, probDiracs eps tail f g = some d ∧ PF.WF eps d ∧
      AtomList ({a | ∃ m, Seg.dirac a m ∈ f} ∪ {a | ∃ m, Seg.dirac a m ∈ g}) d ∧ PF.law d = sum2 f g (tailAtoms T) ∧
      ∀ b, PF.At f b ∨ PF.At g b → PF.At d b := by
  have := PF.law_finite hdf
  have := PF.law_finite hdg
  obtain ⟨S, hS⟩ : ∃ S, S = ({a | ∃ m, Seg.dirac a m ∈ f} ∪ {a | ∃ m, Seg.dirac a m ∈ g} : Set ℝ) := ⟨_, rfl⟩
  have hsep : Sep eps S := by
    rw [hS]
    rintro a (⟨m, ha⟩ | ⟨m, ha⟩) b (⟨n, hb⟩ | ⟨n, hb⟩)
    · exact own_sep he hf ha hb
    · exact hap a m b n ha hb
    · rw [abs_sub_comm, eq_comm]; exact hap b n a m hb ha
    · exact own_sep he hg ha hb
  have mono : ∀ {l : PF ℝ} {S' : Set ℝ}, S' ⊆ S → AtomList S' l → AtomList S l := by
    intro l S' h hl s hs
    obtain ⟨a, m, e, hm, ha⟩ := hl s hs
    exact ⟨a, m, e, hm, h ha⟩
  obtain ⟨a1, a2⟩ := filterMap_law hdf (φ := fun x => PF.law g (T x)) (v := fun a => some (tail g a))
    (by intro a m ha; show ENNReal.ofReal (tail g a) = _; rw [h1 a m ha, ofReal_measureReal])
    (by intro a m c ha e; cases e; rw [h1 a m ha]; exact measureReal_nonneg)
  obtain ⟨b1, b2⟩ := filterMap_law hdg (φ := fun x => PF.law f (T x)) (v := fun a => some (tail f a))
    (by intro a m ha; show ENNReal.ofReal (tail f a) = _; rw [h2 a m ha, ofReal_measureReal])
    (by intro a m c ha e; cases e; rw [h2 a m ha]; exact measureReal_nonneg)
  obtain ⟨c1, c2⟩ := filterMap_law hdg (φ := fun x => PF.law f {x}) (v := fun a => PF.getDirac a f)
    (by
      intro a m ha
      rw [← ofReal_measureReal (s := {a}), law_singleton hdf, massAt_eq_getDirac he hf])
    (by intro a m c ha e; exact hdf _ (getDirac_mem e))
  obtain ⟨fd, f1, f2, f3, f4, f5⟩ := addAll_atoms he hsep (mono (by rw [hS]; exact subset_union_left) a1)
  obtain ⟨gd, g1, g2, g3, g4, g5⟩ := addAll_atoms he hsep (mono (by rw [hS]; exact subset_union_right) b1)
  obtain ⟨kd, k1, k2, k3, k4, -⟩ := addAll_atoms he hsep (mono (by rw [hS]; exact subset_union_right) c1)
  obtain ⟨r, r1, r2, r3, r4, r5⟩ := addDiracs_atoms he hsep f2 f3 g3
  obtain ⟨d, d1, d2, d3, d4, d5⟩ := addDiracs_atoms he hsep r2 r3 k3
  rw [← hS]
  refine ⟨d, ?_, d2, d3, ?_, ?_⟩
  · have e1 : PF.addAll eps [] (f.filterMap fun s => match s with
        | .dirac a m => some (.dirac a (m * tail g a))
        | _ => none) = some fd := by
      rw [← f1]; rfl
    have e2 : PF.addAll eps [] (g.filterMap fun s => match s with
        | .dirac a m => some (.dirac a (m * tail f a))
        | _ => none) = some gd := by
      rw [← g1]; rfl
    have e3 : PF.addAll eps [] (g.filterMap fun s => match s with
        | .dirac a m => (PF.getDirac a f).map fun m' => .dirac a (m * m')
        | _ => none) = some kd := by
      rw [← k1]; rfl
    unfold probDiracs
    exact Option.bind_eq_some_iff.2 ⟨fd, e1, Option.bind_eq_some_iff.2 ⟨gd, e2, Option.bind_eq_some_iff.2 ⟨kd, e3,
      Option.bind_eq_some_iff.2 ⟨r, r1, d1⟩⟩⟩⟩
  · rw [d4, r4, f4, g4, k4, a2, b2, c2, sum2_tailAtoms]
  · intro b hb
    refine d5 b (.inl (r5 b (hb.imp ?_ ?_)))
    · rintro ⟨m, hm⟩
      exact f5 b ⟨m * tail g b, List.mem_filterMap.2 ⟨_, hm, rfl⟩⟩
    · rintro ⟨m, hm⟩
      exact g5 b ⟨m * tail f b, List.mem_filterMap.2 ⟨_, hm, rfl⟩⟩

end Conv
end Pacal
