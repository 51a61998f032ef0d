import Verif.TwoVars.Pair

/-! The whole computation: the pairs are selected correctly, the break points are right, and the pieces give the law. -/

namespace Pacal
namespace TwoVars
open MeasureTheory Set Transform Conv

variable {S : Sym} {op p : ℝ → ℝ → ℝ} {f g : PF ℝ}

theorem pairLoop_eq {P : Par} {z : ℝ} {k : Seg ℝ → Seg ℝ → ℝ} : ∀ (l : List (Seg ℝ × Seg ℝ)) (I : ℝ) (i : Option ℝ),
    (∀ pr ∈ l, pr.1.isDirac = false ∧ pr.2.isDirac = false ∧ pairInt S P p z pr.1 pr.2 = .ok (k pr.1 pr.2)) →
    ∃ i', pairLoop S P p z l I i = .ok (I + (l.map fun pr => k pr.1 pr.2).sum, i')
  | [], I, i, _ => ⟨i, by simp [pairLoop]⟩
  | pr :: r, I, i, hl => by
    obtain ⟨h1, h2, h3⟩ := hl pr (by simp)
    obtain ⟨i', h⟩ := pairLoop_eq r (I + k pr.1 pr.2) (some (k pr.1 pr.2)) fun q hq => hl q (by simp [hq])
    refine ⟨i', ?_⟩
    rw [pairLoop.eq_def]
    simp only
    rw [if_pos ⟨h1, h2⟩, h3]
    show pairLoop S P p z r (I + k pr.1 pr.2) (some (k pr.1 pr.2)) = _
    rw [h]
    simp [add_assoc]

theorem mem_breaks {e : Ext ℝ} : e ∈ breaks S f g ↔
    ∃ x : Ext ℝ, x ∈ PF.getBreaks f ∧ ∃ y : Ext ℝ, y ∈ PF.getBreaks g ∧ ((S.lop x y).getD 0 : EReal) = e := by
  unfold breaks
  refine (mem_npUnique (α := Ext ℝ)).trans ?_
  constructor
  · intro h
    obtain ⟨x, hx, h⟩ := (List.mem_flatMap (β := Ext ℝ)).1 h
    obtain ⟨y, hy, h⟩ := List.mem_map.1 h
    exact ⟨x, hx, y, hy, h⟩
  · rintro ⟨x, hx, y, hy, h⟩
    exact (List.mem_flatMap (β := Ext ℝ)).2 ⟨x, hx, List.mem_map.2 ⟨y, hy, h⟩⟩

theorem corners_breaks {si sj : Seg ℝ} (hsi : si ∈ f) (hsj : sj ∈ g) {r : EReal} (h : r ∈ corners S si sj) :
    (r : Ext ℝ) ∈ breaks S f g := by
  have key : ∀ x y : EReal, (x = Conv.lo si ∨ x = Conv.hi si) → (y = Conv.lo sj ∨ y = Conv.hi sj) → S.lop x y = some r →
      (r : Ext ℝ) ∈ breaks S f g := by
    intro x y hx hy e
    refine mem_breaks.2 ⟨x, mem_getBreaks.2 ⟨si, hsi, hx⟩, y, mem_getBreaks.2 ⟨sj, hsj, hy⟩, ?_⟩
    show (S.lop x y).getD 0 = r
    rw [e]; rfl
  simp only [corners, List.mem_filterMap, List.mem_cons, List.not_mem_nil, or_false, id_eq, exists_eq_right] at h
  rcases h with h | h | h | h
  · exact key _ _ (.inl rfl) (.inl rfl) h.symm
  · exact key _ _ (.inr rfl) (.inr rfl) h.symm
  · exact key _ _ (.inl rfl) (.inr rfl) h.symm
  · exact key _ _ (.inr rfl) (.inl rfl) h.symm

theorem infix_lt {brks : List (Ext ℝ)} (hs : brks.Pairwise (· < ·)) {a b : Ext ℝ} (h : [a, b] <:+: brks) {c : Ext ℝ}
    (hc : c ∈ brks) : c ≤ a ∨ b ≤ c := by
  obtain ⟨l, r, rfl⟩ := h
  rw [List.append_assoc, List.pairwise_append] at hs
  obtain ⟨h1, h2, h3⟩ := hs
  simp only [List.cons_append, List.nil_append, List.pairwise_cons] at h2
  simp only [List.append_assoc, List.cons_append, List.nil_append, List.mem_append, List.mem_cons] at hc
  rcases hc with hc | rfl | rfl | hc
  · exact .inl (h3 c hc a (by simp)).le
  · exact .inl le_rfl
  · exact .inr le_rfl
  · exact .inr (h2.2.1 c hc).le

theorem selected_iff {a b : Ext ℝ} (hab : [a, b] <:+: breaks S f g) {x y : ℝ} (hx : x ∈ interE a b) (hy : y ∈ interE a b)
    {si sj : Seg ℝ} (hsi : si ∈ f) (hsj : sj ∈ g) : selected S x si sj → selected S y si sj := by
  have hs : (breaks S f g).Pairwise (· < ·) := npUnique_sorted _
  rintro ⟨⟨r, hr, h1⟩, r', hr', h2⟩
  refine ⟨⟨r, hr, ?_⟩, r', hr', ?_⟩
  · rcases infix_lt hs hab (corners_breaks hsi hsj hr) with h | h
    · exact lt_of_le_of_lt h hy.1
    · exact absurd (lt_of_lt_of_le hx.2 h) (not_lt.2 (le_of_lt h1))
  · rcases infix_lt hs hab (corners_breaks hsi hsj hr') with h | h
    · exact absurd (lt_of_le_of_lt h hx.1) (not_lt.2 (le_of_lt h2))
    · exact lt_of_lt_of_le hy.2 h

/-- the density that the code computes: the sum over all boxes -/
noncomputable def total (S : Sym) (p : ℝ → ℝ → ℝ) (f g : PF ℝ) (z : ℝ) : ℝ :=
  sum2 f g fun si sj => kernel S p si.points sj.points z

structure Facts (S : Sym) (op p : ℝ → ℝ → ℝ) (P : Par) (f g : PF ℝ) : Prop where
  nonneg : ∀ᵐ z, 0 ≤ total S p f g z
  int : Integrable (total S p f g)
  law : jointLaw op p = volume.withDensity fun z => ENNReal.ofReal (total S p f g z)
  eq : ∀ᵐ z, ∀ si ∈ f, ∀ sj ∈ g, selected S z si sj → pairInt S P p z si sj = .ok (kernel S p si.points sj.points z)
  zero : ∀ᵐ z, ∀ si ∈ f, ∀ sj ∈ g, ¬ selected S z si sj → kernel S p si.points sj.points z = 0

theorem facts {P : Par} (hP : ExactQ P.q P.qp) {eps : ℝ} (hf : PF.WF eps f) (hfc : ∀ s ∈ f, s.isDirac = false)
    (hg : PF.WF eps g) (hgc : ∀ s ∈ g, s.isDirac = false) (hR : Regular S op f g) (hJ : Joint p f g) : Facts S op p P f g := by
  have hb : ∀ si ∈ f, ∀ sj ∈ g, _ := fun si hsi sj hsj =>
    box_law (hR.solves si hsi sj hsj) hR.meas hR.measA hR.measJ hJ.meas hJ.nonneg hJ.int (points_measurable (hfc si hsi))
      (points_measurable (hgc sj hsj))
  obtain ⟨w1, w2, w3⟩ := withDensity_sum2 f g (k := fun si sj z => kernel S p si.points sj.points z)
    (fun si hsi sj hsj => .of_forall (hb si hsi sj hsj).2.1) (fun si hsi sj hsj => (hb si hsi sj hsj).2.2.1)
  refine ⟨w1, w2, ?_, ?_, ?_⟩
  · have hsupp : ∀ᵐ w ∂((volume : Measure (ℝ × ℝ)).withDensity fun w => ENNReal.ofReal (p w.1 w.2)),
        (∃ s ∈ f, w.1 ∈ s.points) ∧ ∃ s ∈ g, w.2 ∈ s.points := by
      rw [ae_withDensity_iff hJ.meas.ennreal_ofReal]
      filter_upwards [hJ.supp] with w hw hne
      refine hw fun h => hne ?_
      rw [h, ENNReal.ofReal_zero]
    rw [jointLaw, boxes hf hfc hg hgc _ hsupp, map_sum2 hR.meas]
    refine Eq.trans ?_ w3.symm
    exact sum2_congr fun si hsi sj hsj => (hb si hsi sj hsj).1
  · refine ae_pairs fun si hsi sj hsj => ?_
    filter_upwards [(hb si hsi sj hsj).2.2.2] with z hz hsel
    exact pairInt_eq hP (hfc si hsi) (hgc sj hsj) (hf.seg si hsi) (hg.seg sj hsj) (hR.cuts si hsi sj hsj z hsel) hz
  · refine ae_pairs fun si hsi sj hsj => ?_
    have hne : ∀ᵐ z : ℝ, ∀ r ∈ corners S si sj, r ≠ (z : EReal) := by
      have h1 : ∀ r : EReal, ∀ᵐ z : ℝ, r ≠ (z : EReal) := by
        intro r
        have hsub : ({z : ℝ | r = (z : EReal)}).Subsingleton := by
          intro x hx y hy
          have hx : r = (x : EReal) := hx
          have hy : r = (y : EReal) := hy
          exact EReal.coe_eq_coe_iff.1 (hx.symm.trans hy)
        rw [ae_iff]
        simpa using hsub.measure_zero (volume : Measure ℝ)
      generalize corners S si sj = l
      induction l with
      | nil => simp
      | cons r l ih =>
        filter_upwards [h1 r, ih] with z a b r' hr'
        rcases List.mem_cons.1 hr' with rfl | h
        · exact a
        · exact b r' h
    filter_upwards [hne] with z hz hns
    have : fibre S si.points sj.points z = ∅ := by
      ext x
      simp only [mem_empty_iff_false, iff_false]
      rintro ⟨h1, h2⟩
      obtain ⟨⟨r, hr, hle⟩, r', hr', hle'⟩ := hR.extreme si hsi sj hsj x h1 _ h2
      rw [(hR.solves si hsi sj hsj).sol x h1 z h2] at hle hle'
      exact hns ⟨⟨r, hr, lt_of_le_of_ne hle (hz r hr)⟩, r', hr', lt_of_le_of_ne hle' (hz r' hr').symm⟩
    rw [kernel, this]
    simp

/-- the loop at a point, with the pairs selected at a point with the same selection -/
theorem loop_total {P : Par} (hfc : ∀ s ∈ f, s.isDirac = false) (hgc : ∀ s ∈ g, s.isDirac = false) {z y : ℝ}
    (h1 : ∀ si ∈ f, ∀ sj ∈ g, selected S z si sj → pairInt S P p z si sj = .ok (kernel S p si.points sj.points z))
    (h2 : ∀ si ∈ f, ∀ sj ∈ g, ¬ selected S z si sj → kernel S p si.points sj.points z = 0)
    (hsame : ∀ si ∈ f, ∀ sj ∈ g, selected S y si sj ↔ selected S z si sj) (i : Option ℝ) :
    ∃ i', pairLoop S P p z (findSegList S f g y) 0 i = .ok (total S p f g z, i') := by
  obtain ⟨i', h⟩ := pairLoop_eq (S := S) (p := p) (P := P) (z := z) (k := fun si sj => kernel S p si.points sj.points z)
    (findSegList S f g y) 0 i (by
      intro pr hpr
      obtain ⟨p1, p2, p3⟩ := mem_pairsBy.1 hpr
      exact ⟨hfc _ p1, hgc _ p2, h1 _ p1 _ p2 ((hsame _ p1 _ p2).1 (by simpa using p3))⟩)
  refine ⟨i', ?_⟩
  rw [h, zero_add, findSegList, sum_pairsBy (k := fun si sj => kernel S p si.points sj.points z)]
  · rfl
  · intro si hsi sj hsj ht
    exact h2 si hsi sj hsj fun hc => by simpa [(hsame si hsi sj hsj).2 hc] using ht

theorem model_law {P : Par} (hP : ExactQ P.q P.qp) (he : 0 ≤ P.eps) (pole : ℝ → ℝ → Pole) {eps : ℝ} (hf : PF.WF eps f)
    (hfc : ∀ s ∈ f, s.isDirac = false) (hg : PF.WF eps g) (hgc : ∀ s ∈ g, s.isDirac = false) (hR : Regular S op f g)
    (hJ : Joint p f g) :
    ∃ r, convmodel S P pole p f g = some r ∧ PF.WF P.eps r ∧ PF.Dens r ∧ PF.law r = jointLaw op p ∧
      ∀ᵐ z, r.val z = total S p f g z := by
  obtain ⟨k1, k2, k3, heq, hz⟩ := facts (P := P) hP hf hfc hg hgc hR hJ
  have hb : (breaks S f g).Pairwise (· < ·) := npUnique_sorted _
  have hfin : ∀ si ∈ f, ∀ sj ∈ g, ∃ r : ℝ, (Ext.fin r : Ext ℝ) ∈ breaks S f g := by
    intro si hsi sj hsj
    have key : ∀ x y : ℝ, (si.lo = .fin x ∨ si.hi = .fin x) → (sj.lo = .fin y ∨ sj.hi = .fin y) →
        (Ext.fin (op x y) : Ext ℝ) ∈ breaks S f g := by
      intro x y hx hy
      refine mem_breaks.2 ⟨.fin x, mem_getBreaks.2 ⟨si, hsi, hx.imp Eq.symm Eq.symm⟩, .fin y,
        mem_getBreaks.2 ⟨sj, hsj, hy.imp Eq.symm Eq.symm⟩, ?_⟩
      have e : S.lop (Ext.fin x : Ext ℝ) (Ext.fin y : Ext ℝ) = some ((op x y : ℝ) : EReal) :=
        hR.fin x ⟨si, hsi, hx⟩ y ⟨sj, hsj, hy⟩
      show (S.lop (Ext.fin x : Ext ℝ) (Ext.fin y : Ext ℝ)).getD 0 = _
      rw [e]; rfl
    rcases fin_end si with ⟨x, hx⟩ | ⟨x, hx⟩ <;> rcases fin_end sj with ⟨y, hy⟩ | ⟨y, hy⟩
    · exact ⟨_, key x y (.inl hx) (.inl hy)⟩
    · exact ⟨_, key x y (.inl hx) (.inr hy)⟩
    · exact ⟨_, key x y (.inr hx) (.inl hy)⟩
    · exact ⟨_, key x y (.inr hx) (.inr hy)⟩
  have hn : ∀ a b, [a, b] <:+: breaks S f g → ¬ (a = .ninf ∧ b = .pinf) := by
    rintro a b hab ⟨rfl, rfl⟩
    have hmem : (Ext.ninf : Ext ℝ) ∈ breaks S f g := hab.subset (by simp)
    obtain ⟨x, hx, y, hy, -⟩ := mem_breaks.1 hmem
    obtain ⟨si, hsi, -⟩ := mem_getBreaks.1 hx
    obtain ⟨sj, hsj, -⟩ := mem_getBreaks.1 hy
    obtain ⟨r, hr⟩ := hfin si hsi sj hsj
    rcases infix_lt hb hab hr with h | h
    · exact absurd h (not_le.2 (EReal.bot_lt_coe r))
    · exact absurd h (not_le.2 (EReal.coe_lt_top r))
  obtain ⟨r, r1, r2, r3, r4, -, r6, -⟩ := assemble he (pole := pole) (F := modelAt S P p f g) k1 k2 hb hn
    (by
      intro a b hab
      have hlt : a < b := by
        obtain ⟨l, r, h⟩ := hab
        rw [← h, List.append_assoc, List.pairwise_append] at hb
        exact (List.pairwise_cons.1 hb.2.1).1 b (by simp)
      filter_upwards [heq, hz] with x h1 h2 hx
      obtain ⟨i', e⟩ := loop_total (y := mid a b) hfc hgc h1 h2 (fun si hsi sj hsj =>
        ⟨selected_iff hab (mid_mem hlt (hn a b hab)) hx hsi hsj, selected_iff hab hx (mid_mem hlt (hn a b hab)) hsi hsj⟩) none
      rw [modelAt, e]
      rfl)
    (by
      filter_upwards [hz] with x h2 hx
      by_contra hc
      refine hx ?_
      unfold total sum2
      refine List.sum_eq_zero fun y hy => ?_
      obtain ⟨si, hsi, rfl⟩ := List.mem_map.1 hy
      refine List.sum_eq_zero fun y hy => ?_
      obtain ⟨sj, hsj, rfl⟩ := List.mem_map.1 hy
      refine h2 si hsi sj hsj fun ht => hc ?_
      obtain ⟨⟨r, hr, h1⟩, r', hr', h2⟩ := ht
      exact ⟨⟨r, corners_breaks hsi hsj hr, h1⟩, r', corners_breaks hsi hsj hr', h2⟩)
    (D := []) (by simp) List.Pairwise.nil
  refine ⟨r, ?_, r2, r3, ?_, r6⟩
  · rw [convmodel, ← r1, List.append_nil]
  · rw [r4, k3]; simp [PF.law]

end TwoVars
end Pacal
