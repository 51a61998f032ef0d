import Verif.Conv.LemQuadMM

/-! Minimum and maximum of distributions with atoms, with errors in the integrals over pairs of pieces (used for C92). -/

namespace Pacal
namespace Conv
open MeasureTheory Set Transform Breaks

variable {P : Par} {f g : PF ℝ} {ε E : ℝ → ℝ}

theorem near_getDirac {l l' : PF ℝ} (h : List.Forall₂ (Near E) l l') (x : ℝ) : PF.getDirac x l' = PF.getDirac x l := by
  induction h with
  | nil => rfl
  | cons h _ ih => cases h <;> simp only [PF.getDirac, ih]

theorem near_bump {l l' : PF ℝ} (h : List.Forall₂ (Near E) l l') (x v : ℝ) : List.Forall₂ (Near E) (bumpDirac x v l) (bumpDirac x v l') := by
  induction h with
  | nil => exact .nil
  | cons h hl ih =>
    cases h with
    | dirac a m =>
      simp only [bumpDirac]
      split_ifs
      · exact .cons (.dirac _ _) hl
      · exact .cons (.dirac _ _) ih
    | fin p a b f f' h => exact .cons (.fin p a b f f' h) ih
    | minf b f f' h => exact .cons (.minf b f f' h) ih
    | pinf a f f' h => exact .cons (.pinf a f f' h) ih

theorem near_addDiracs (eps : ℝ) : ∀ (d : PF ℝ) {l l' : PF ℝ}, List.Forall₂ (Near E) l l' → NearO E (addDiracs eps l d) (addDiracs eps l' d)
  | [], l, l', h => by rw [addDiracs, addDiracs]; exact h
  | .dirac a m :: d, l, l', h => by
    simp only [addDiracs]
    rw [near_getDirac h]
    split_ifs
    · have := near_addSegment eps h (Near.dirac (E := E) a m)
      revert this
      rcases PF.addSegment eps l (.dirac a m) with _ | o <;> rcases PF.addSegment eps l' (.dirac a m) with _ | o' <;> intro this
      · trivial
      · exact this.elim
      · exact this.elim
      · exact near_addDiracs eps d this
    · exact near_addDiracs eps d (near_bump h a m)
  | .fin _ _ _ _ :: d, l, l', h => by simpa only [addDiracs] using near_addDiracs eps d h
  | .const _ _ _ :: d, l, l', h => by simpa only [addDiracs] using near_addDiracs eps d h
  | .minf _ _ :: d, l, l', h => by simpa only [addDiracs] using near_addDiracs eps d h
  | .pinf _ _ :: d, l, l', h => by simpa only [addDiracs] using near_addDiracs eps d h

theorem probDiracs_congr (eps : ℝ) {tail tail' : PF ℝ → ℝ → ℝ} {f g : PF ℝ} (hf : ∀ a m, Seg.dirac a m ∈ f → tail g a = tail' g a)
    (hg : ∀ a m, Seg.dirac a m ∈ g → tail f a = tail' f a) : probDiracs eps tail f g = probDiracs eps tail' f g := by
  unfold probDiracs
  rw [List.filterMap_congr (l := f) (g := fun s => match s with
    | .dirac a m => some (.dirac a (m * tail' g a))
    | _ => none) (fun s hs => by cases s <;> first | rfl | (show some (Seg.dirac _ (_ * tail g _)) = some (Seg.dirac _ (_ * tail' g _)); rw [hf _ _ hs])),
    List.filterMap_congr (l := g) (g := fun s => match s with
    | .dirac a m => some (.dirac a (m * tail' f a))
    | _ => none) (fun s hs => by cases s <;> first | rfl | (show some (Seg.dirac _ (_ * tail f _)) = some (Seg.dirac _ (_ * tail' f _)); rw [hg _ _ hs]))]
  rfl

theorem halfPair_atom (i i' : Except PyErr ℝ) (x : ℝ) {si sj : Seg ℝ} (h : ¬ (si.isDirac = false ∧ sj.isDirac = false)) :
    halfPair i x si sj = halfPair i' x si sj := by
  unfold halfPair
  rw [if_neg h, if_neg h]

theorem pairMin_atom (P P' : Par) (x : ℝ) {si sj : Seg ℝ} (h : ¬ (si.isDirac = false ∧ sj.isDirac = false)) :
    pairMin P x si sj = pairMin P' x si sj := by
  unfold pairMin
  rw [halfPair_atom _ _ x h, halfPair_atom _ _ x (fun h' => h h'.symm)]

theorem pairMax_atom (P P' : Par) (x : ℝ) {si sj : Seg ℝ} (h : ¬ (si.isDirac = false ∧ sj.isDirac = false)) :
    pairMax P x si sj = pairMax P' x si sj := by
  unfold pairMax
  rw [halfPair_atom _ _ x h, halfPair_atom _ _ x (fun h' => h h'.symm)]

theorem convMM_near_atoms {opR : ℝ → ℝ → ℝ} {T : ℝ → Set ℝ} {opE : Ext ℝ → Ext ℝ → Ext ℝ} {R : Ext ℝ → Ext ℝ → Prop}
    {op : EReal → EReal → EReal} {pair0 pair : ℝ → Seg ℝ → Seg ℝ → Except PyErr ℝ} {tail0 tail : PF ℝ → ℝ → ℝ}
    (h0 : MMOp (exactPar P) opR T opE R op pair0 tail0) (h : MMArgs P f g) (hε : ∀ x, 0 ≤ ε x) (hf : PF.Dens f) (hg : PF.Dens g)
    (hat : ∀ x si sj, ¬ (si.isDirac = false ∧ sj.isDirac = false) → pair x si sj = pair0 x si sj)
    (htf : ∀ a m, Seg.dirac a m ∈ f → tail (cutAt g f) a = (PF.law g).real (T a))
    (htg : ∀ a m, Seg.dirac a m ∈ g → tail (cutAt f g) a = (PF.law f).real (T a))
    (hq : ∀ si ∈ cutAt f g, ∀ sj ∈ cutAt g f, si.isDirac = false → sj.isDirac = false →
      ∀ᵐ x, Test op x si sj → Approx (ε x) (pair x si sj) (sj.val x * (si.law).real (T x) + si.val x * (sj.law).real (T x))) :
    NearO (fun x => sum2 (cutAt f g) (cutAt g f) (pairErr (ε x))) (convMM (exactPar P) opE op pair0 tail0 f g) (convMM P opE op pair tail f g) := by
  obtain ⟨f', f1, f2, f3, -⟩ := C04_law h.eps _ (finites_sorted (getBreaks_sorted g)) f h.fwf hf
  obtain ⟨g', g1, g2, g3, -⟩ := C04_law h.eps _ (finites_sorted (getBreaks_sorted f)) g h.gwf hg
  have ef : f' = cutAt f g := by
    rw [splitByPoints_eq h.eps (finites_sorted (getBreaks_sorted g)) h.fwf] at f1
    exact (Option.some.inj f1).symm
  have eg : g' = cutAt g f := by
    rw [splitByPoints_eq h.eps (finites_sorted (getBreaks_sorted f)) h.gwf] at g1
    exact (Option.some.inj g1).symm
  subst ef eg
  have hs : (mmBreaks opE f g).Pairwise (· < ·) := npUnique_sorted _
  obtain ⟨p, hp⟩ := exists_fin_break h.fne
  obtain ⟨q, hq'⟩ := exists_fin_break h.gne
  obtain ⟨c, hc⟩ := h0.fin p q
  have hcm : Ext.fin c ∈ mmBreaks opE f g := mem_mmBreaks.2 ⟨_, hp, _, hq', hc.symm⟩
  have hn : ∀ a b, [a, b] <:+: mmBreaks opE f g → ¬ (a = .ninf ∧ b = .pinf) := by
    rintro a b hab ⟨rfl, rfl⟩
    rcases infix_between hs hab hcm with h1 | h1
    · exact not_le_ninf _ h1
    · exact not_pinf_le _ h1
  have hp := run_near (t := Test op) (h0 := pair0) (h := pair) (f := cutAt f g) (g := cutAt g f) (brks := mmBreaks opE f g)
    (e := fun x => pairErr (ε x)) (fun x => pairErr_nonneg (hε x)) (by
      intro si hsi sj hsj
      have hs := h0.pair si sj (f2.seg si hsi) (g2.seg sj hsj) (f3 si hsi) (g3 sj hsj)
      by_cases hc : si.isDirac = false ∧ sj.isDirac = false
      · filter_upwards [hs.eq, hq si hsi sj hsj hc.1 hc.2, den_ae si, den_ae sj] with x h1 hap e1 e2 hm
        obtain ⟨w, h2, h3⟩ := hap hm
        refine ⟨_, w, h1 hm, h2, ?_⟩
        rw [pairErr, if_pos hc, tk, ← e1, ← e2]
        exact h3
      · filter_upwards [hs.eq] with x h1 hm
        refine ⟨_, _, h1 hm, (hat x si sj hc).trans (h1 hm), ?_⟩
        rw [sub_self, abs_zero]
        exact pairErr_nonneg (hε x) si sj)
    (fun a b hab x hx si hsi sj hsj => h0.same h.fwf h.gwf hab hx (mid_mem (infix_lt hs hab) (hn a b hab)) hsi hsj) (fun _ _ => .none)
  rw [runAt_mm, runAt_mm] at hp
  have h1 := near_addAll P.eps hp (l := []) (l' := []) .nil
  obtain ⟨-, m1, -⟩ := cutAt_law (g := g) h.eps h.fwf hf
  obtain ⟨-, m2, -⟩ := cutAt_law (g := f) h.eps h.gwf hg
  have hd : probDiracs P.eps tail (cutAt f g) (cutAt g f) = probDiracs P.eps tail0 (cutAt f g) (cutAt g f) :=
    probDiracs_congr P.eps
      (fun a m ha => by rw [htf a m ((cutAt_dirac h.fwf).1 ha), h0.tail g f g3, m2])
      (fun a m ha => by rw [htg a m ((cutAt_dirac h.gwf).1 ha), h0.tail f g f3, m1])
  unfold convMM
  dsimp only
  rw [show (exactPar P).eps = P.eps from rfl, f1, Option.bind_some, g1, Option.bind_some, Option.bind_some, Option.bind_some,
    show PF.npUnique ((PF.getBreaks f).flatMap fun a => (PF.getBreaks g).map fun b => opE a b) = mmBreaks opE f g from rfl]
  split_ifs
  · trivial
  revert h1
  rcases PF.addAll P.eps [] (pieces (fun _ _ => Pole.none) (fun z x => valueOf (sumLoop (pair0 x) (findSegList op (cutAt f g) (cutAt g f) z) 0))
      (mmBreaks opE f g)) with _ | o <;>
    rcases PF.addAll P.eps [] (pieces (fun _ _ => Pole.none) (fun z x => valueOf (sumLoop (pair x) (findSegList op (cutAt f g) (cutAt g f) z) 0))
      (mmBreaks opE f g)) with _ | o' <;> intro h1
  · trivial
  · exact h1.elim
  · exact h1.elim
  rw [Option.bind_some, Option.bind_some, hd]
  rcases probDiracs P.eps tail0 (cutAt f g) (cutAt g f) with _ | d
  · trivial
  · exact near_addDiracs P.eps d h1

end Conv
end Pacal
