import Verif.Copula.LemCondProps

/-!
Helper lemmas: variables with a given Archimedean copula, uniform on `[c, c + 1]`.
-/

open MeasureTheory ProbabilityTheory Set

namespace Pacal.Copula

open Pacal.Depend

variable {g : Gen}

/-- the uniform distribution on `[c, c + 1]` -/
noncomputable def unifR (c : ℝ) : MargR :=
  ⟨{ pdf := fun x => if c ≤ x ∧ x ≤ c + 1 then 1 else 0, cdf := fun x => clip (x - c) }, Ext.fin c, Ext.fin (c + 1)⟩

theorem arch_joint (hg : g.Regular) (c : ℝ) : ∃ (Q : Measure (ℝ × ℝ)) (_ : IsProbabilityMeasure Q),
    Joint [unifR c, unifR c] g.val Q fun k z => c + if k = 0 then z.1 else z.2 := by
  have hp := archLaw_prob hg
  refine ⟨squareLaw (dens g), hp, ?_⟩
  have u1 : (squareLaw (dens g)) (Iic (1 : ℝ) ×ˢ Iic (1 : ℝ))ᶜ = 0 := by
    rw [measure_compl (measurableSet_Iic.prod measurableSet_Iic) (measure_ne_top _ _), squareLaw_univ, tsub_self]
  have c1 : clip 1 = 1 := by simp [clip]
  have cc : Continuous clip := by unfold clip; fun_prop
  have m0 : ∀ k : ℕ, Measurable fun z : ℝ × ℝ => c + if k = 0 then z.1 else z.2 := by
    intro k
    by_cases hk : k = 0
    · simp only [hk, if_true]; fun_prop
    · simp only [hk, if_false]; fun_prop
  have f : ∀ (k : ℕ) u, cdf ((squareLaw (dens g)).map fun z => c + if k = 0 then z.1 else z.2) u = clip (u - c) := by
    intro k u
    by_cases hk : k = 0
    · rw [cdf_map_apply (m0 k), measureReal_congr (t := Iic (u - c) ×ˢ Iic 1) ?_, Measure.real, archLaw_apply hg, c1,
        val_right hg (clip_mem _).1 (clip_mem _).2, ENNReal.toReal_ofReal (clip_mem _).1]
      filter_upwards [measure_eq_zero_iff_ae_notMem.1 u1] with z hz
      simp only [hk, if_true]
      refine propext ⟨fun (h : c + z.1 ≤ u) => ⟨?_, (not_not.1 hz).2⟩, fun h => ?_⟩
      · simp only [mem_Iic]; linarith
      · have := h.1
        simp only [mem_Iic] at this
        change c + z.1 ≤ u
        linarith
    · rw [cdf_map_apply (m0 k), measureReal_congr (t := Iic 1 ×ˢ Iic (u - c)) ?_, Measure.real, archLaw_apply hg, c1,
        val_left hg (clip_mem _).1 (clip_mem _).2, ENNReal.toReal_ofReal (clip_mem _).1]
      filter_upwards [measure_eq_zero_iff_ae_notMem.1 u1] with z hz
      simp only [hk, if_false]
      refine propext ⟨fun (h : c + z.2 ≤ u) => ⟨(not_not.1 hz).1, ?_⟩, fun h => ?_⟩
      · simp only [mem_Iic]; linarith
      · have := h.2
        simp only [mem_Iic] at this
        change c + z.2 ≤ u
        linarith
  refine ⟨fun k _ => m0 k, fun k m hm => ?_, fun X hX => ?_⟩
  · have e : m = unifR c := by
      have := List.mem_of_getElem? hm
      simpa using this
    subst e
    exact ⟨cc.comp (continuous_id.sub continuous_const), fun x => (f k x).symm⟩
  · obtain ⟨x, y, rfl⟩ : ∃ x y, X = [x, y] := by
      match X, hX with
      | [x, y], _ => exact ⟨x, y, rfl⟩
    have e : {z : ℝ × ℝ | ∀ (k : ℕ) w, [x, y][k]? = some w → (c + if k = 0 then z.1 else z.2) ≤ w} = Iic (x - c) ×ˢ Iic (y - c) := by
      ext z
      simp only [mem_prod, mem_Iic]
      constructor
      · intro h
        have h0 := h 0 x rfl
        have h1 := h 1 y rfl
        simp only [if_true, one_ne_zero, if_false] at h0 h1
        exact ⟨by linarith, by linarith⟩
      · rintro ⟨h0, h1⟩ k w hw
        match k, hw with
        | 0, hw =>
          simp only [List.getElem?_cons_zero, Option.some.injEq] at hw
          simp only [if_true]
          linarith
        | 1, hw =>
          simp only [List.getElem?_cons_succ, List.getElem?_cons_zero, Option.some.injEq] at hw
          simp only [one_ne_zero, if_false]
          linarith
    have e2 : margCdf ([unifR c, unifR c].map MargR.toMarg) [x, y] = [clip (x - c), clip (y - c)] := rfl
    rw [e, e2, Measure.real, archLaw_apply hg, ENNReal.toReal_ofReal]
    by_cases h0 : (0 : ℝ) ∈ [clip (x - c), clip (y - c)]
    · rw [hg.val_zero h0]
    · have hx := (clip_mem (x - c)).1.lt_of_ne fun h => h0 (by simp [← h])
      have hy := (clip_mem (y - c)).1.lt_of_ne fun h => h0 (by simp [← h])
      rw [val_two hg hx (clip_mem _).2 hy (clip_mem _).2]
      exact (hg.gen.range _ (add_nonneg (hg.gen.nonneg hx (clip_mem _).2) (hg.gen.nonneg hy (clip_mem _).2))).1.le

end Pacal.Copula
