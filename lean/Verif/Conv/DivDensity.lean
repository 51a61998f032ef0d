import Verif.Conv.DivLemmas
import Verif.Conv.ProdDensity

/-! The density of a quotient in closed form; the pairs of pieces that contribute; lemmas for the examples. -/

namespace Pacal

/-- the density of the quotient of independent variables: the integral of `f(xt) g(t) |t|`; for every atom `a` of the
numerator the density of `a / Y`; for every atom `b` of the denominator the density of `X / b` -/
noncomputable def divDensity (f g : PF ℝ) (x : ℝ) : ℝ :=
  (∫ t, f.val (x * t) * g.val t * |t|) +
    (f.atomsOf.map fun p => p.2 * (|p.1| / x ^ 2 * g.val (p.1 / x))).sum +
    (g.atomsOf.map fun p => p.2 * (|p.1| * f.val (p.1 * x))).sum

namespace Conv
open MeasureTheory Set Transform Breaks

theorem divK_eq (si sj : Seg ℝ) (x : ℝ) :
    divK si sj x = fibreK (fun x t => x * t) (fun t => |t|) (den sj) (den si) x +
      si.mass * (|(lo si).toReal| / x ^ 2 * den sj ((lo si).toReal / x)) +
      sj.mass * (|(lo sj).toReal| * den si ((lo sj).toReal * x)) := by
  have hc1 : ∀ a m (s : Seg ℝ), fibreK (fun x t => x * t) (fun t => |t|) (den (.dirac a m)) (den s) x = 0 := by
    intro a m s; simp [fibreK, den_dirac]
  have hc2 : ∀ a m (s : Seg ℝ), fibreK (fun x t => x * t) (fun t => |t|) (den s) (den (.dirac a m)) x = 0 := by
    intro a m s; simp [fibreK, den_dirac]
  have hm : ∀ {s : Seg ℝ}, s.isDirac = false → s.mass = 0 := by
    intro s hs; cases s <;> first | rfl | simp [Seg.isDirac] at hs
  rcases isDirac_cases si with hi' | ⟨a, m, rfl⟩ <;> rcases isDirac_cases sj with hj | ⟨b, n, rfl⟩
  · rw [divK, if_pos ⟨hi', hj⟩, hm hi', hm hj]; ring
  · rw [hc1, hm hi']
    rw [divK, if_neg (by simp [Seg.isDirac]), if_neg (by simp [hi']), if_pos ⟨hi', rfl⟩, mul_comm x]; ring
  · rw [hc2, hm hj]
    rw [divK, if_neg (by simp [Seg.isDirac]), if_pos ⟨rfl, hj⟩]; ring
  · rw [hc1]; simp [divK, Seg.isDirac, den_dirac]

theorem fibreDiv_integrable {si sj : Seg ℝ} (hdi : si.Dens) (hdj : sj.Dens) :
    ∀ᵐ x, Integrable fun t => den sj t * (|t| * den si (x * t)) := by
  rcases isDirac_cases si with hi' | ⟨a, m, rfl⟩
  · rcases isDirac_cases sj with hj | ⟨b, n, rfl⟩
    · exact (fibre_dens fibreDiv (den_integrable hj hdj) (den_integrable hi' hdi) (den_nonneg hj hdj) (den_nonneg hi' hdi)).1
    · simp [den_dirac]
  · simp [den_dirac]

theorem sum2_divK {f g : PF ℝ} (hf : PF.Dens f) (hg : PF.Dens g) :
    ∀ᵐ x, (sum2 f g fun i j => divK i j x) = divDensity f g x := by
  have hint := ae_pairs (f := f) (g := g) fun si hsi sj hsj => fibreDiv_integrable (hf si hsi) (hg sj hsj)
  have all : ∀ (l L : PF ℝ) (u : ℝ → ℝ → ℝ), (∀ a, a ≠ 0 → Measure.QuasiMeasurePreserving (u a) volume volume) →
      ∀ᵐ x, ∀ p ∈ L.atomsOf, p.1 ≠ 0 → l.val (u p.1 x) = dens l (u p.1 x) := by
    intro l L u hu
    induction L.atomsOf with
    | nil => simp
    | cons p q ih =>
      have h2 : ∀ᵐ x, p.1 ≠ 0 → l.val (u p.1 x) = dens l (u p.1 x) := by
        by_cases hp : p.1 = 0
        · exact .of_forall fun x h => absurd hp h
        · filter_upwards [(hu _ hp).ae (dens_ae l)] with x hx _ using hx
      filter_upwards [ih, h2] with x h1 h2 p' hp'
      rcases List.mem_cons.1 hp' with rfl | hp'
      · exact h2
      · exact h1 p' hp'
  filter_upwards [hint, all g f (fun a x => a / x) fun a ha => qmp_div ha, all f g (fun a x => a * x) fun a ha => qmp_mul ha,
    ae_ne_real 0] with x h1 h2 h3 hx0
  have e1 : (f.atomsOf.map fun p => p.2 * (|p.1| / x ^ 2 * g.val (p.1 / x))).sum =
      (f.map fun s => s.mass * (|(lo s).toReal| / x ^ 2 * dens g ((lo s).toReal / x))).sum := by
    rw [atoms_sum f fun a => |a| / x ^ 2 * dens g (a / x)]
    congr 1
    refine List.map_congr_left fun p hp => ?_
    by_cases h0 : p.1 = 0
    · simp [h0]
    · rw [h2 p hp h0]
  have e2 : (g.atomsOf.map fun p => p.2 * (|p.1| * f.val (p.1 * x))).sum =
      (g.map fun s => s.mass * (|(lo s).toReal| * dens f ((lo s).toReal * x))).sum := by
    rw [atoms_sum g fun a => |a| * dens f (a * x)]
    congr 1
    refine List.map_congr_left fun p hp => ?_
    by_cases h0 : p.1 = 0
    · simp [h0]
    · rw [h3 p hp h0]
  have e3 : ∫ t, f.val (x * t) * g.val t * |t| = sum2 f g fun i j => fibreK (fun x t => x * t) (fun t => |t|) (den j) (den i) x := by
    have : (fun t => f.val (x * t) * g.val t * |t|) =ᵐ[volume] fun t => sum2 f g fun i j => den j t * (|t| * den i (x * t)) := by
      filter_upwards [dens_ae g, (qmp_mul hx0).ae (dens_ae f)] with t h4 h5
      have e : (sum2 f g fun i j => den j t * (|t| * den i (x * t))) = sum2 f g fun i j => (|t| * den i (x * t)) * den j t :=
        sum2_congr fun i _ j _ => by ring
      rw [h4, h5, e, sum2_mul_left f g (fun i => |t| * den i (x * t)) (fun j => den j t), List.sum_map_mul_left]
      unfold dens
      ring
    rw [integral_congr_ae this, integral_sum2 h1]
    rfl
  have hk : (sum2 f g fun i j => divK i j x) = sum2 f g fun i j =>
      (fibreK (fun x t => x * t) (fun t => |t|) (den j) (den i) x + i.mass * (|(lo i).toReal| / x ^ 2 * den j ((lo i).toReal / x))) +
        j.mass * (|(lo j).toReal| * den i ((lo j).toReal * x)) :=
    sum2_congr fun i _ j _ => divK_eq i j x
  rw [divDensity, e1, e2, e3, hk, sum2_add, sum2_add]
  congr 1
  · congr 1
    unfold sum2
    congr 1
    refine List.map_congr_left fun s _ => ?_
    rw [List.sum_map_mul_left, List.sum_map_mul_left]
    rfl
  · rw [sum2_swap_real]
    unfold sum2
    congr 1
    refine List.map_congr_left fun s _ => ?_
    rw [List.sum_map_mul_left, List.sum_map_mul_left]
    rfl

theorem divDensity_cut {eps : ℝ} (he : 0 ≤ eps) {f g : PF ℝ} (hf : PF.WF eps f) (hg : PF.WF eps g) (hfd : PF.Dens f) (hgd : PF.Dens g) (x : ℝ) :
    divDensity (cutD f) (cutD g) x = divDensity f g x := by
  have e1 : PF.val (cutD f) = f.val := funext (cutD_law he hf hfd).2.2
  have e2 : PF.val (cutD g) = g.val := funext (cutD_law he hg hgd).2.2
  unfold divDensity
  rw [e1, e2, cutD_atoms hf, cutD_atoms hg]

/-! ### pairs of pieces -/

/-- two points with a quotient between break points: the pair is found -/
theorem testDiv_of_points {P : Par} {f g : PF ℝ} (h : DivBase P f g) {neg0 : Bool} {a b : Ext ℝ} (hab : [a, b] <:+: dBreaks P neg0 f g)
    {si sj : Seg ℝ} (hi' : si ∈ cutD f) (hj : sj ∈ cutD g) {s t : ℝ} (hs : s ∈ si.points) (ht : t ∈ sj.points) (ht0 : t ≠ 0)
    (hx : s / t ∈ interE a b) : TestDiv (s / t) si sj := by
  have hne : s / t ≠ 0 := by
    rcases h.sign hab hx hx with h | h
    · exact h.1.ne'
    · exact h.1.ne
  have e : s / t * t = s := div_mul_cancel₀ s ht0
  obtain ⟨p1, p2, p3⟩ := points_le ht
  obtain ⟨q1, q2, q3⟩ := points_le hs
  rw [← e] at q1 q2 q3
  refine testDiv_of hne ((cutD_wf h.gwf).seg sj hj) p1 p2 q1 q2 ?_
  rcases isDirac_cases sj with hsj | ⟨d, n, rfl⟩
  · exact .inl (p3 hsj)
  · rcases isDirac_cases si with hsi | ⟨c, m, rfl⟩
    · exact .inr (q3 hsi)
    · obtain rfl : s = c := hs
      obtain rfl : t = d := ht
      exact absurd hx (not_inside (dBreaks_sorted ..) (h.mem_fin (dirac_break hi') (dirac_break hj) ht0) a b hab)

/-! ### lemmas for the violations -/

theorem splitForDiv_pos {eps : ℝ} {f : PF ℝ} (hn : f ≠ []) (h : ∀ s ∈ f, 0 < lo s ∧ 0 < hi s) : splitForDiv eps f = some f := by
  unfold splitForDiv
  rw [if_neg (getBreaks_ne hn), if_pos]
  left
  cases hl : PF.getBreaks f with
  | nil => exact absurd hl (getBreaks_ne hn)
  | cons x l =>
    have hx : x ∈ PF.getBreaks f := by rw [hl]; simp
    obtain ⟨s, hs, hx⟩ := mem_getBreaks.1 hx
    rcases hx with rfl | rfl
    · exact (h s hs).1
    · exact (h s hs).2

/-- the result for a piece divided by a constant depends on the density at the constant only -/
theorem convdiv_dirac (P : Par) (neg0 arr : Bool) (pole : ℝ → ℝ → Pole) {a b c m : ℝ} (ha : 0 < a) (hab : a < b) (hc : 0 < c)
    {F G : ℝ → ℝ} (h : F c = G c) (p : Pole) :
    convdiv P neg0 arr pole [.fin p a b F] [.dirac c m] = convdiv P neg0 arr pole [.fin p a b G] [.dirac c m] := by
  have hs : ∀ F : ℝ → ℝ, splitForDiv P.eps [Seg.fin p a b F] = some [Seg.fin p a b F] := by
    intro F
    refine splitForDiv_pos (by simp) fun s hs => ?_
    obtain rfl := List.mem_singleton.1 hs
    exact ⟨EReal.coe_pos.2 ha, EReal.coe_pos.2 (ha.trans hab)⟩
  have hsg : splitForDiv P.eps [Seg.dirac c m] = some [Seg.dirac c m] := by
    refine splitForDiv_pos (by simp) fun s hs => ?_
    obtain rfl := List.mem_singleton.1 hs
    exact ⟨EReal.coe_pos.2 hc, EReal.coe_pos.2 hc⟩
  have hk : ∀ z x, divAt P arr [Seg.fin p a b F] [Seg.dirac c m] z x = divAt P arr [Seg.fin p a b G] [Seg.dirac c m] z x := by
    intro z x
    classical
    unfold divAt findSegListDiv pairsBy
    have ht : TestDiv z (.fin p a b F) (.dirac c m) ↔ TestDiv z (.fin p a b G) (.dirac c m) := Iff.rfl
    simp only [List.flatMap_cons, List.flatMap_nil, List.append_nil, List.filter_cons, List.filter_nil]
    by_cases hz : TestDiv z (.fin p a b G) (.dirac c m)
    · rw [if_pos (decide_eq_true (ht.2 hz)), if_pos (decide_eq_true hz)]
      have e : ∀ F : ℝ → ℝ, funDiv P arr x (.fin p a b F) (.dirac c m) = .ok (m * F c * |c|) := by
        intro F
        unfold funDiv pairDiv
        rw [if_neg (by simp [Seg.isDirac]), if_neg (by simp [Seg.isDirac]), if_pos ⟨rfl, rfl⟩, show (lo (.dirac c m)).toReal = c from rfl, if_neg hc.ne']
        rfl
      simp only [List.map_cons, List.map_nil, sumLoop, e, h]
    · rw [if_neg (by simpa using fun h => hz (ht.1 h)), if_neg (by simpa using hz)]
      rfl
  have hbr : divBreaks P neg0 [Seg.fin p a b F] [Seg.dirac c m] = divBreaks P neg0 [Seg.fin p a b G] [Seg.dirac c m] := rfl
  have hd : divAt P arr [Seg.fin p a b F] [Seg.dirac c m] = divAt P arr [Seg.fin p a b G] [Seg.dirac c m] := funext fun z => funext fun x => hk z x
  have hcd : ∀ g : PF ℝ, convdiracsDiv P.eps [Seg.fin p a b F] g = convdiracsDiv P.eps [Seg.fin p a b G] g := by
    intro g
    have e : ∀ F : ℝ → ℝ, pairsBy (fun si sj : Seg ℝ => si.isDirac && sj.isDirac) [Seg.fin p a b F] g = [] := by
      intro F
      simp [pairsBy, Seg.isDirac]
    unfold convdiracsDiv convdiracs diracTable
    rw [e, e]
  unfold convdiv
  rw [hs, hs, Option.bind_some, Option.bind_some, hsg, Option.bind_some, Option.bind_some, hbr, hd, hcd]

theorem insertSeg_noatom {l r : PF ℝ} {s : Seg ℝ} (hs : s.isDirac = false) (hl : ∀ t ∈ l, t.isDirac = false)
    (h : PF.insertSeg l s = some r) : ∀ t ∈ r, t.isDirac = false := by
  have key : r = insort Seg.lt l s := by
    unfold PF.insertSeg at h
    split at h
    · exact (Option.some.inj h).symm
    · split_ifs at h
      · exact (Option.some.inj h).symm
      · split at h
        all_goals first
          | (simp [Seg.isDirac] at hs; done)
          | exact absurd h (by simp)
  subst key
  intro t ht
  unfold insort at ht
  rcases List.mem_append.1 ht with ht | ht
  · exact hl t (List.mem_of_mem_take ht)
  · rcases List.mem_cons.1 ht with rfl | ht
    · exact hs
    · exact hl t (List.mem_of_mem_drop ht)

theorem addAll_noatom {eps : ℝ} {ss l r : PF ℝ} (hs : ∀ s ∈ ss, s.isDirac = false) (hl : ∀ t ∈ l, t.isDirac = false)
    (h : PF.addAll eps l ss = some r) : ∀ t ∈ r, t.isDirac = false := by
  induction ss generalizing l with
  | nil =>
    simp only [PF.addAll, Option.some.injEq] at h
    exact h ▸ hl
  | cons s ss ih =>
    rw [PF.addAll] at h
    obtain ⟨l', h1, h2⟩ := Option.bind_eq_some_iff.1 h
    refine ih (fun t ht => hs t (by simp [ht])) ?_ h2
    have hs0 := hs s (by simp)
    refine insertSeg_noatom hs0 hl ?_
    cases s <;> first | exact h1 | simp [Seg.isDirac] at hs0

theorem pieces_noatom (pole : ℝ → ℝ → Pole) (F : ℝ → ℝ → ℝ) (l : List (Ext ℝ)) : ∀ s ∈ pieces pole F l, s.isDirac = false := by
  have hp : ∀ a b s, pieceOf pole F a b = some s → s.isDirac = false := by
    intro a b s h
    unfold pieceOf at h
    split at h <;> simp at h <;> rw [← h] <;> rfl
  have hc : ∀ l, ∀ s ∈ cuts pole F l, s.isDirac = false := by
    intro l
    induction l with
    | nil => simp [cuts]
    | cons a l ih =>
      cases l with
      | nil => simp [cuts]
      | cons b r =>
        intro s hs
        rw [cuts] at hs
        rcases List.mem_append.1 hs with hs | hs
        · exact hp a b s (Option.mem_toList.1 hs)
        · exact ih s hs
  intro s hs
  unfold pieces at hs
  simp only [List.mem_append, List.mem_filter] at hs
  exact hc l s (by tauto)

theorem convdiracs_none (eps : ℝ) (op : ℝ → ℝ → ℝ) (f : PF ℝ) {g : PF ℝ} (h : ∀ s ∈ g, s.isDirac = false) : convdiracs eps op f g = some [] := by
  have : pairsBy (fun si sj : Seg ℝ => si.isDirac && sj.isDirac) f g = [] := by
    refine List.eq_nil_iff_forall_not_mem.2 fun pr hpr => ?_
    obtain ⟨-, h2, h3⟩ := mem_pairsBy.1 hpr
    simp [h _ h2] at h3
  rw [convdiracs, diracTable, this]
  rfl

theorem massAt_noatom {l : PF ℝ} (h : ∀ t ∈ l, t.isDirac = false) (x : ℝ) : PF.massAt l x = 0 := by
  unfold PF.massAt
  refine List.sum_eq_zero fun y hy => ?_
  obtain ⟨s, hs, rfl⟩ := List.mem_map.1 hy
  have := h s hs
  cases s <;> first | rfl | simp [Seg.isDirac] at this

end Conv
end Pacal
