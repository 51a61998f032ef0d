import Verif.Conv.LemQuadOp

/-! Minimum and maximum with errors in the integrals, compared with exact integrals (used for C92). -/

namespace Pacal
namespace Conv
open MeasureTheory Set Transform Breaks

variable {P : Par} {f g : PF ℝ} {ε : ℝ → ℝ}

theorem probDiracs_none (eps : ℝ) (tail : PF ℝ → ℝ → ℝ) {f g : PF ℝ} (hf : ∀ s ∈ f, s.isDirac = false) (hg : ∀ s ∈ g, s.isDirac = false) :
    probDiracs eps tail f g = some [] := by
  have key : ∀ {l : PF ℝ} (F : Seg ℝ → Option (Seg ℝ)), (∀ s, s.isDirac = false → F s = none) → (∀ s ∈ l, s.isDirac = false) →
      l.filterMap F = [] := fun F hF hl => List.filterMap_eq_nil_iff.2 fun s hs => hF s (hl s hs)
  unfold probDiracs
  rw [key _ (fun s hs => ?_) hf, key _ (fun s hs => ?_) hg, key _ (fun s hs => ?_) hg]
  · rfl
  all_goals cases s <;> first | rfl | simp [Seg.isDirac] at hs

theorem cutAt_cont {eps : ℝ} {l m : PF ℝ} (hl : PF.WF eps l) (hd : ∀ s ∈ l, s.isDirac = false) : ∀ s ∈ cutAt l m, s.isDirac = false := by
  intro s hs
  rcases isDirac_cases s with h1 | ⟨a, k, rfl⟩
  · exact h1
  · exact absurd (hd _ ((cutAt_dirac hl).1 hs)) (by simp [Seg.isDirac])

theorem convMM_near {opR : ℝ → ℝ → ℝ} {T : ℝ → Set ℝ} {opE : Ext ℝ → Ext ℝ → Ext ℝ} {R : Ext ℝ → Ext ℝ → Prop}
    {op : EReal → EReal → EReal} {pair0 pair : ℝ → Seg ℝ → Seg ℝ → Except PyErr ℝ} {tail0 tail : PF ℝ → ℝ → ℝ}
    (h0 : MMOp (exactPar P) opR T opE R op pair0 tail0) (h : MMArgs P f g) (hε : ∀ x, 0 ≤ ε x) (hf : PF.Dens f) (hg : PF.Dens g)
    (hfa : ∀ s ∈ f, s.isDirac = false) (hga : ∀ s ∈ g, s.isDirac = false)
    (hq : ∀ si ∈ cutAt f g, ∀ sj ∈ cutAt g f,
      ∀ᵐ x, Test op x si sj → Approx (ε x) (pair x si sj) (sj.val x * (si.law).real (T x) + si.val x * (sj.law).real (T x))) :
    NearO (fun x => sum2 (cutAt f g) (cutAt g f) (pairErr (ε x))) (convMM (exactPar P) opE op pair0 tail0 f g) (convMM P opE op pair tail f g) := by
  obtain ⟨f', f1, f2, f3, -⟩ := C04_law h.eps _ (finites_sorted (getBreaks_sorted g)) f h.fwf hf
  obtain ⟨g', g1, g2, g3, -⟩ := C04_law h.eps _ (finites_sorted (getBreaks_sorted f)) g h.gwf hg
  have ef : f' = cutAt f g := by
    rw [splitByPoints_eq h.eps (finites_sorted (getBreaks_sorted g)) h.fwf] at f1
    exact (Option.some.inj f1).symm
  have eg : g' = cutAt g f := by
    rw [splitByPoints_eq h.eps (finites_sorted (getBreaks_sorted f)) h.gwf] at g1
    exact (Option.some.inj g1).symm
  subst ef eg
  have nf := cutAt_cont (m := g) h.fwf hfa
  have ng := cutAt_cont (m := f) h.gwf hga
  have hs : (mmBreaks opE f g).Pairwise (· < ·) := npUnique_sorted _
  obtain ⟨p, hp⟩ := exists_fin_break h.fne
  obtain ⟨q, hq'⟩ := exists_fin_break h.gne
  obtain ⟨c, hc⟩ := h0.fin p q
  have hcm : Ext.fin c ∈ mmBreaks opE f g := mem_mmBreaks.2 ⟨_, hp, _, hq', hc.symm⟩
  have hn : ∀ a b, [a, b] <:+: mmBreaks opE f g → ¬ (a = .ninf ∧ b = .pinf) := by
    rintro a b hab ⟨rfl, rfl⟩
    rcases infix_between hs hab hcm with h1 | h1
    · exact not_le_ninf _ h1
    · exact not_pinf_le _ h1
  have hp := run_near (t := Test op) (h0 := pair0) (h := pair) (f := cutAt f g) (g := cutAt g f) (brks := mmBreaks opE f g)
    (e := fun x => pairErr (ε x)) (fun x => pairErr_nonneg (hε x)) (by
      intro si hsi sj hsj
      have hs := h0.pair si sj (f2.seg si hsi) (g2.seg sj hsj) (f3 si hsi) (g3 sj hsj)
      filter_upwards [hs.eq, hq si hsi sj hsj, den_ae si, den_ae sj] with x h1 hap e1 e2 hm
      obtain ⟨w, h2, h3⟩ := hap hm
      refine ⟨_, w, h1 hm, h2, ?_⟩
      rw [pairErr, if_pos ⟨nf si hsi, ng sj hsj⟩, tk, ← e1, ← e2]
      exact h3)
    (fun a b hab x hx si hsi sj hsj => h0.same h.fwf h.gwf hab hx (mid_mem (infix_lt hs hab) (hn a b hab)) hsi hsj) (fun _ _ => .none)
  rw [runAt_mm, runAt_mm] at hp
  have h1 := near_addAll P.eps hp (l := []) (l' := []) .nil
  unfold convMM
  dsimp only
  rw [show (exactPar P).eps = P.eps from rfl, f1, Option.bind_some, g1, Option.bind_some, Option.bind_some, Option.bind_some,
    show PF.npUnique ((PF.getBreaks f).flatMap fun a => (PF.getBreaks g).map fun b => opE a b) = mmBreaks opE f g from rfl]
  split_ifs
  · trivial
  revert h1
  rcases PF.addAll P.eps [] (pieces (fun _ _ => Pole.none) (fun z x => valueOf (sumLoop (pair0 x) (findSegList op (cutAt f g) (cutAt g f) z) 0))
      (mmBreaks opE f g)) with _ | o <;>
    rcases PF.addAll P.eps [] (pieces (fun _ _ => Pole.none) (fun z x => valueOf (sumLoop (pair x) (findSegList op (cutAt f g) (cutAt g f) z) 0))
      (mmBreaks opE f g)) with _ | o' <;> intro h1
  · trivial
  · exact h1.elim
  · exact h1.elim
  rw [Option.bind_some, Option.bind_some, probDiracs_none _ _ nf ng, probDiracs_none _ _ nf ng]
  exact h1

end Conv
end Pacal
