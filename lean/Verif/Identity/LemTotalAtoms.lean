import Verif.Identity.LemTotalEx

/-! Lemmas for the example of C95 with atoms: minima and maxima on a machine with exact integrals. -/

namespace Pacal.Identity
open MeasureTheory Set Conv

theorem bound_zero (e : Expr) : bound (fun _ => 0) e = 0 :=
  le_antisymm (by simpa using bound_linear (δ := fun _ => 0) (d := 0) le_rfl (fun _ => le_rfl) (fun _ => le_rfl) (e := e) (by norm_num))
    (bound_nonneg (fun _ => le_rfl) e)

theorem ideal_arith : ArithmeticOK ideal := ⟨le_rfl, rfl, le_rfl, fun _ _ => rfl⟩

/-- the arguments of a node with two arguments -/
theorem ideal_facts {e : Expr} (h : Defined ideal.neg0 e) (hB : Budget ideal (fun _ l => l) (fun _ => 0) e) {r : PF ℝ}
    (hr : e.runWith ideal (fun _ l => l) = some r) : PF.WF 0 r ∧ PF.Dens r ∧ r ≠ [] := by
  have hb : bound (fun _ => 0) e < 1 := by rw [bound_zero]; exact one_pos
  obtain ⟨h1, -⟩ := defined_total ideal_arith rfl rfl (fun _ => le_rfl) h hB hb
  obtain ⟨w, d, -, n⟩ := total_facts ideal_arith (fun _ => le_rfl) h1 hB hb hr
  exact ⟨w, d, n⟩

theorem stored_zero {n : ℝ} {E : ℝ → ℝ} {o₀ o : Option (PF ℝ)} (hn : NearO E o₀ o) (h : ∀ l, o = some l → PF.Dens l) :
    Stored n (fun _ => 0) (fun _ => 0) 0 o (fun l => l) := by
  refine ⟨fun _ => ⟨le_rfl, le_rfl⟩, ⟨integrable_zero _ _ _, integrable_zero _ _ _⟩, fun l hl => ?_, h, by simp⟩
  rcases o₀ with _ | l₀
  · rw [hl] at hn; exact hn.elim
  · rw [hl] at hn; exact near_self_all hn

theorem ideal_min {a b : Expr} (ha : Defined ideal.neg0 a) (hb : Defined ideal.neg0 b) (Ba : Budget ideal (fun _ l => l) (fun _ => 0) a)
    (Bb : Budget ideal (fun _ l => l) (fun _ => 0) b) : Budget ideal (fun _ l => l) (fun _ => 0) (.min a b) := by
  refine ⟨Ba, Bb, fun f g hf hg => ?_⟩
  obtain ⟨f1, f2, f3⟩ := ideal_facts ha Ba hf
  obtain ⟨g1, g2, g3⟩ := ideal_facts hb Bb hg
  have args : MMArgs ideal.par f g := ⟨le_rfl, f3, g3, f1, g1, atomsApart0 rfl f g⟩
  obtain ⟨d1, m1, -⟩ := cutAt_law (g := g) args.eps args.fwf f2
  obtain ⟨d2, m2, -⟩ := cutAt_law (g := f) args.eps args.gwf g2
  obtain ⟨l, l1, l2, l3, l4⟩ := Conv.C15_min_law_partial args exPar_exact f2 g2
  have ht : MinTails ideal.par f g := ⟨fun x m _ => by rw [← m2]; exact (opMin exPar_exact).tail _ _ d2 x,
    fun x m _ => by rw [← m1]; exact (opMin exPar_exact).tail _ _ d1 x⟩
  have hq : MinIntegrals ideal.par (fun _ => 0) f g := by
    intro si hsi sj hsj n1 n2
    have w1 := cutAt_wf args.fwf hsi
    have w2 := cutAt_wf args.gwf hsj
    filter_upwards [((opMin exPar_exact).pair si sj w1 w2 (d1 si hsi) (d2 sj hsj)).eq, den_ae si, den_ae sj] with x h1 e1 e2 hp
    have h2 := h1 ((test_min_points w1 w2 (by rintro a m rfl; simp [Seg.isDirac] at n1)
      (by rintro a m rfl; simp [Seg.isDirac] at n2)).2 hp)
    rw [tk, ← e1, ← e2] at h2
    exact ⟨_, h2, by simp⟩
  refine ⟨ht, fun _ => 0, fun _ => 0, hq, stored_zero (min_near args (fun _ => le_rfl) f2 g2 ht hq) fun r hr => ?_⟩
  obtain rfl := Option.some.inj (l1.symm.trans hr)
  exact l3

theorem ideal_max {a b : Expr} (ha : Defined ideal.neg0 a) (hb : Defined ideal.neg0 b) (Ba : Budget ideal (fun _ l => l) (fun _ => 0) a)
    (Bb : Budget ideal (fun _ l => l) (fun _ => 0) b) : Budget ideal (fun _ l => l) (fun _ => 0) (.max a b) := by
  refine ⟨Ba, Bb, fun f g hf hg => ?_⟩
  obtain ⟨f1, f2, f3⟩ := ideal_facts ha Ba hf
  obtain ⟨g1, g2, g3⟩ := ideal_facts hb Bb hg
  have args : MMArgs ideal.par f g := ⟨le_rfl, f3, g3, f1, g1, atomsApart0 rfl f g⟩
  obtain ⟨d1, m1, -⟩ := cutAt_law (g := g) args.eps args.fwf f2
  obtain ⟨d2, m2, -⟩ := cutAt_law (g := f) args.eps args.gwf g2
  obtain ⟨l, l1, l2, l3, l4⟩ := Conv.C15_max_law_partial args exPar_exact f2 g2
  have ht : MaxTails ideal.par f g := ⟨fun x m _ => by rw [← m2]; exact (opMax exPar_exact).tail _ _ d2 x,
    fun x m _ => by rw [← m1]; exact (opMax exPar_exact).tail _ _ d1 x⟩
  have hq : MaxIntegrals ideal.par (fun _ => 0) f g := by
    intro si hsi sj hsj n1 n2
    have w1 := cutAt_wf args.fwf hsi
    have w2 := cutAt_wf args.gwf hsj
    filter_upwards [((opMax exPar_exact).pair si sj w1 w2 (d1 si hsi) (d2 sj hsj)).eq, den_ae si, den_ae sj] with x h1 e1 e2 hp
    have h2 := h1 ((test_max_points w1 w2 (by rintro a m rfl; simp [Seg.isDirac] at n1)
      (by rintro a m rfl; simp [Seg.isDirac] at n2)).2 hp)
    rw [tk, ← e1, ← e2] at h2
    exact ⟨_, h2, by simp⟩
  refine ⟨ht, fun _ => 0, fun _ => 0, hq, stored_zero (max_near args (fun _ => le_rfl) f2 g2 ht hq) fun r hr => ?_⟩
  obtain rfl := Option.some.inj (l1.symm.trans hr)
  exact l3

theorem ideal_mul {a b : Expr} (ha : Defined ideal.neg0 a) (hb : Defined ideal.neg0 b) (na : NotZero a) (nb : NotZero b)
    (Ba : Budget ideal (fun _ l => l) (fun _ => 0) a) (Bb : Budget ideal (fun _ l => l) (fun _ => 0) b) :
    Budget ideal (fun _ l => l) (fun _ => 0) (.mul a b) := by
  refine ⟨Ba, Bb, fun f g hf hg => ?_⟩
  obtain ⟨f1, f2, f3⟩ := ideal_facts ha Ba hf
  obtain ⟨g1, g2, g3⟩ := ideal_facts hb Bb hg
  have h1 : ∀ e, bound (fun _ => 0) e < 1 := fun e => by rw [bound_zero]; exact one_pos
  obtain ⟨a1, a2⟩ := defined_total ideal_arith rfl rfl (fun _ => le_rfl) ha Ba (h1 a)
  obtain ⟨b1, b2⟩ := defined_total ideal_arith rfl rfl (fun _ => le_rfl) hb Bb (h1 b)
  have args : ProdArgs ideal.par f g := ⟨le_rfl, f3, g3, f1, g1, apartMul0 rfl f g,
    .inl ⟨notZero_total ideal_arith (fun _ => le_rfl) a1 Ba (h1 a) na hf (a2 f hf),
      notZero_total ideal_arith (fun _ => le_rfl) b1 Bb (h1 b) nb hg (b2 g hg)⟩⟩
  obtain ⟨hz, hq⟩ := prod_exact args exPar_exact f2 g2
  obtain ⟨l, l1, l2, l3, l4⟩ := Conv.C13_law_partial args exPar_exact f2 g2 ideal.pole
  refine ⟨hz, fun _ => 0, fun _ => 0, hq, stored_zero (convprod_near_atoms args (fun _ => le_rfl) f2 g2 hz hq ideal.pole) fun r hr => ?_⟩
  obtain rfl := Option.some.inj (l1.symm.trans hr)
  exact l3

end Pacal.Identity
