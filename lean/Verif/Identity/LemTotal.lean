import Verif.Identity.SpecTotal
import Verif.Identity.LemErr
import Verif.Conv.PropsQuad
import Verif.Conv.LemQuadAtoms
import Verif.Conv.LemQuadZero

/-! Lemmas for C95: errors of quadrature and interpolation at one node. -/

namespace Pacal.Identity
open MeasureTheory Set Conv

variable {ε η : ℝ → ℝ} {n δ β : ℝ} {l r : PF ℝ}

theorem near_trans {E E' : ℝ → ℝ} {s t u : Seg ℝ} (h : Near E s t) (h' : Near E' t u) : Near (fun x => E x + E' x) s u := by
  cases h with
  | fin p a b f f' h =>
    cases h' with
    | fin _ _ _ _ f'' h' =>
      refine .fin p a b f f'' ?_
      filter_upwards [h, h'] with x h1 h2 hx
      have := abs_sub_le (f'' x) (f' x) (f x)
      linarith [h1 hx, h2 hx]
  | minf b f f' h =>
    cases h' with
    | minf _ _ f'' h' =>
      refine .minf b f f'' ?_
      filter_upwards [h, h'] with x h1 h2 hx
      have := abs_sub_le (f'' x) (f' x) (f x)
      linarith [h1 hx, h2 hx]
  | pinf b f f' h =>
    cases h' with
    | pinf _ _ f'' h' =>
      refine .pinf b f f'' ?_
      filter_upwards [h, h'] with x h1 h2 hx
      have := abs_sub_le (f'' x) (f' x) (f x)
      linarith [h1 hx, h2 hx]
  | dirac a m => cases h'; exact .dirac a m

theorem near_trans_all {E E' : ℝ → ℝ} : ∀ {l m r : PF ℝ}, List.Forall₂ (Near E) l m → List.Forall₂ (Near E') m r →
    List.Forall₂ (Near fun x => E x + E' x) l r
  | _, _, _, .nil, .nil => .nil
  | _, _, _, .cons h hl, .cons h' hl' => .cons (near_trans h h') (near_trans_all hl hl')

theorem near_redrawn {E : ℝ → ℝ} {s t : Seg ℝ} (h : Near E s t) : Redrawn s t := by
  cases h <;> constructor

theorem stored_ok {eps : ℝ} {F G : PF ℝ} {o : Option (PF ℝ)} {store : PF ℝ → PF ℝ} {μ : Measure ℝ} (hs : Stored (F.count * G.count) ε η δ o store)
    (hn : NearO (fun x => sum2 F G (pairErr (ε x))) (some l) o) (hw : PF.WF eps l) (hd : PF.Dens l) (h : Within β (PF.law l) μ) :
    ∃ r, o.map store = some r ∧ PF.WF eps r ∧ PF.Dens r ∧ Within (β + δ) (PF.law r) μ := by
  obtain ⟨r₀, rfl, h0⟩ := hn.some
  have h1 := near_trans_all h0 (hs.near r₀ rfl)
  have hr := h1.imp fun _ _ => near_redrawn
  have hd' := hs.dens r₀ rfl
  refine ⟨store r₀, rfl, redrawn_wf hr hw, hd', ?_⟩
  rw [add_comm]
  refine (Redrawn.within hr hd hd' ?_).trans h
  refine le_trans (integral_mono_of_nonneg (.of_forall fun _ => abs_nonneg _)
    (g := fun x => F.count * G.count * ε x + η x) ((hs.integrable.1.const_mul _).add hs.integrable.2) ?_) ?_
  · have h2 : ∀ x, 0 ≤ sum2 F G (pairErr (ε x)) + η x := fun x => by
      obtain ⟨h3, h4⟩ := hs.nonneg x
      rw [sum2_pairErr]
      positivity
    filter_upwards [near_val h2 h1 hw.sorted] with x hx
    rw [sum2_pairErr] at hx
    exact hx
  · rw [integral_add (hs.integrable.1.const_mul _) hs.integrable.2, integral_const_mul]
    exact hs.area

theorem keep_ok {M : Machine} {replace : Expr → PF ℝ → PF ℝ} {e : Expr} (h : ∀ l, replace e l = l) {μ : Measure ℝ} {d : ℝ} (hδ : 0 ≤ d)
    (hw : PF.WF M.env.eps l) (hd : PF.Dens l) (hl : Within β (PF.law l) μ) :
    PF.WF M.env.eps (replace e l) ∧ PF.Dens (replace e l) ∧ Within (β + d) (PF.law (replace e l)) μ := by
  rw [h]
  exact ⟨hw, hd, hl.mono (by linarith)⟩

theorem min_near {P : Par} {f g : PF ℝ} (h : MMArgs P f g) (hε : ∀ x, 0 ≤ ε x) (hf : PF.Dens f) (hg : PF.Dens g) (ht : MinTails P f g)
    (hq : MinIntegrals P ε f g) :
    NearO (fun x => sum2 (cutAt f g) (cutAt g f) (pairErr (ε x))) (convmin (exactPar P) f g) (convmin P f g) :=
  convMM_near_atoms (pair := pairMin P) (tail := fun h a => h.integrate P.q P.qp a ⊤) (opMin (exactPar_exact P)) h hε hf hg
    (fun x si sj hc => pairMin_atom _ _ x hc) ht.1 ht.2 (fun si hsi sj hsj n1 n2 => by
      filter_upwards [hq si hsi sj hsj n1 n2] with x h1 ht
      exact h1 ((test_min_points (cutAt_wf h.fwf hsi) (cutAt_wf h.gwf hsj) (by rintro a m rfl; simp [Seg.isDirac] at n1)
        (by rintro a m rfl; simp [Seg.isDirac] at n2)).1 ht))

theorem max_near {P : Par} {f g : PF ℝ} (h : MMArgs P f g) (hε : ∀ x, 0 ≤ ε x) (hf : PF.Dens f) (hg : PF.Dens g) (ht : MaxTails P f g)
    (hq : MaxIntegrals P ε f g) :
    NearO (fun x => sum2 (cutAt f g) (cutAt g f) (pairErr (ε x))) (convmax (exactPar P) f g) (convmax P f g) :=
  convMM_near_atoms (pair := pairMax P) (tail := fun h a => h.integrate P.q P.qp ⊥ a) (opMax (exactPar_exact P)) h hε hf hg
    (fun x si sj hc => pairMax_atom _ _ x hc) ht.1 ht.2 (fun si hsi sj hsj n1 n2 => by
      filter_upwards [hq si hsi sj hsj n1 n2] with x h1 ht
      exact h1 ((test_max_points (cutAt_wf h.fwf hsi) (cutAt_wf h.gwf hsj) (by rintro a m rfl; simp [Seg.isDirac] at n1)
        (by rintro a m rfl; simp [Seg.isDirac] at n2)).1 ht))

end Pacal.Identity
