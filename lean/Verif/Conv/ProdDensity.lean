import Verif.Conv.ProdLemmas
import Mathlib.Topology.Instances.EReal.Lemmas

/-! The density of a product in closed form; the pairs of pieces that contribute. -/

namespace Pacal

/-- the density of the product of independent variables: the integral of `f(t) g(x/t) / |t|`, and for every atom `a` of one
of the variables with `a ≠ 0` the density of `a` times the other one -/
noncomputable def prodDensity (f g : PF ℝ) (x : ℝ) : ℝ :=
  (∫ t, f.val t * g.val (x / t) / |t|) +
    (f.atomsOf.map fun p => if p.1 = 0 then 0 else p.2 * g.val (x / p.1) / |p.1|).sum +
    (g.atomsOf.map fun p => if p.1 = 0 then 0 else p.2 * f.val (x / p.1) / |p.1|).sum

namespace Conv
open MeasureTheory Set Transform Breaks

/-- the density of `a` times a variable with density `G`, at `x` -/
noncomputable def scaled (G : ℝ → ℝ) (x a : ℝ) : ℝ := if a = 0 then 0 else |a|⁻¹ * G (x / a)

theorem prodK_eq (si sj : Seg ℝ) (x : ℝ) :
    prodK si sj x = fibreK (fun x t => x / t) (fun t => |t|⁻¹) (den si) (den sj) x + si.mass * scaled (den sj) x (lo si).toReal +
      sj.mass * scaled (den si) x (lo sj).toReal := by
  have hc1 : ∀ a m (s : Seg ℝ), fibreK (fun x t => x / t) (fun t => |t|⁻¹) (den (.dirac a m)) (den s) x = 0 := by
    intro a m s; simp [fibreK, den_dirac]
  have hc2 : ∀ a m (s : Seg ℝ), fibreK (fun x t => x / t) (fun t => |t|⁻¹) (den s) (den (.dirac a m)) x = 0 := by
    intro a m s; simp [fibreK, den_dirac]
  have hm : ∀ {s : Seg ℝ}, s.isDirac = false → s.mass = 0 := by
    intro s hs; cases s <;> first | rfl | simp [Seg.isDirac] at hs
  rcases isDirac_cases si with hi' | ⟨a, m, rfl⟩ <;> rcases isDirac_cases sj with hj | ⟨b, n, rfl⟩
  · rw [prodK, if_pos ⟨hi', hj⟩, hm hi', hm hj]; ring
  · rw [prodK_right hi', hc2, hm hi', show (Seg.dirac b n).mass = n from rfl, show (lo (.dirac b n)).toReal = b from rfl, scaled, scaled]
    split_ifs <;> ring
  · rw [prodK_left hj, hc1, hm hj, show (Seg.dirac a m).mass = m from rfl, show (lo (.dirac a m)).toReal = a from rfl, scaled, scaled]
    split_ifs <;> ring
  · rw [hc1]; simp [prodK, Seg.isDirac, scaled, den_dirac]

theorem fibre_integrable {si sj : Seg ℝ} (hdi : si.Dens) (hdj : sj.Dens) :
    ∀ᵐ x, Integrable fun t => den si t * (|t|⁻¹ * den sj (x / t)) := by
  rcases isDirac_cases si with hi' | ⟨a, m, rfl⟩
  · rcases isDirac_cases sj with hj | ⟨b, n, rfl⟩
    · exact (fibre_dens fibreMul (den_integrable hi' hdi) (den_integrable hj hdj) (den_nonneg hi' hdi) (den_nonneg hj hdj)).1
    · simp [den_dirac]
  · simp [den_dirac]

theorem qmp_div_const {a : ℝ} (ha : a ≠ 0) : Measure.QuasiMeasurePreserving (fun x : ℝ => x / a) volume volume := by
  have := qmp_mul (inv_ne_zero ha)
  simpa only [div_eq_inv_mul] using this

theorem scaled_sum (l : PF ℝ) (x a : ℝ) : (l.map fun s => scaled (den s) x a).sum = scaled (dens l) x a := by
  unfold scaled
  split_ifs
  · simp
  · rw [List.sum_map_mul_left]; rfl

theorem sum2_prodK {f g : PF ℝ} (hf : PF.Dens f) (hg : PF.Dens g) :
    ∀ᵐ x, (sum2 f g fun i j => prodK i j x) = prodDensity f g x := by
  have hint := ae_pairs (f := f) (g := g) fun si hsi sj hsj => fibre_integrable (hf si hsi) (hg sj hsj)
  have all : ∀ (l L : PF ℝ), ∀ᵐ x, ∀ p ∈ L.atomsOf, p.1 ≠ 0 → l.val (x / p.1) = dens l (x / p.1) := by
    intro l L
    induction L.atomsOf with
    | nil => simp
    | cons p q ih =>
      have h2 : ∀ᵐ x, p.1 ≠ 0 → l.val (x / p.1) = dens l (x / p.1) := by
        by_cases hp : p.1 = 0
        · exact .of_forall fun x h => absurd hp h
        · filter_upwards [(qmp_div_const hp).ae (dens_ae l)] with x hx _ using hx
      filter_upwards [ih, h2] with x h1 h2 p' hp'
      rcases List.mem_cons.1 hp' with rfl | hp'
      · exact h2
      · exact h1 p' hp'
  filter_upwards [hint, all g f, all f g, ae_ne_real 0] with x h1 h2 h3 hx0
  have e1 : ∀ {L l : PF ℝ}, (∀ p ∈ L.atomsOf, p.1 ≠ 0 → l.val (x / p.1) = dens l (x / p.1)) →
      (L.atomsOf.map fun p => if p.1 = 0 then 0 else p.2 * l.val (x / p.1) / |p.1|).sum =
        (L.map fun s => s.mass * scaled (dens l) x (lo s).toReal).sum := by
    intro L l h
    rw [atoms_sum L fun a => scaled (dens l) x a]
    congr 1
    refine List.map_congr_left fun p hp => ?_
    unfold scaled
    split_ifs with h0
    · simp
    · rw [h p hp h0]; ring
  have e3 : ∫ t, f.val t * g.val (x / t) / |t| = sum2 f g fun i j => fibreK (fun x t => x / t) (fun t => |t|⁻¹) (den i) (den j) x := by
    have : (fun t => f.val t * g.val (x / t) / |t|) =ᵐ[volume] fun t => sum2 f g fun i j => den i t * (|t|⁻¹ * den j (x / t)) := by
      filter_upwards [dens_ae f, (qmp_div hx0).ae (dens_ae g)] with t h4 h5
      rw [h4, h5, sum2_mul_left f g (fun i => den i t) (fun j => |t|⁻¹ * den j (x / t)), List.sum_map_mul_left]
      unfold dens
      ring
    rw [integral_congr_ae this, integral_sum2 h1]
    rfl
  have hk : (sum2 f g fun i j => prodK i j x) = sum2 f g fun i j =>
      (fibreK (fun x t => x / t) (fun t => |t|⁻¹) (den i) (den j) x + i.mass * scaled (den j) x (lo i).toReal) + j.mass * scaled (den i) x (lo j).toReal :=
    sum2_congr fun i _ j _ => prodK_eq i j x
  rw [prodDensity, e1 h2, e1 h3, e3, hk, sum2_add, sum2_add]
  congr 1
  · congr 1
    unfold sum2
    congr 1
    refine List.map_congr_left fun s _ => ?_
    rw [List.sum_map_mul_left, scaled_sum]
  · rw [sum2_swap_real]
    unfold sum2
    congr 1
    refine List.map_congr_left fun s _ => ?_
    rw [List.sum_map_mul_left, scaled_sum]

theorem prodDensity_cut {eps : ℝ} (he : 0 ≤ eps) {f g : PF ℝ} (hf : PF.WF eps f) (hg : PF.WF eps g) (hfd : PF.Dens f) (hgd : PF.Dens g) (x : ℝ) :
    prodDensity (cut3 f) (cut3 g) x = prodDensity f g x := by
  have e1 : PF.val (cut3 f) = f.val := funext (cut3_law he hf hfd).2.2
  have e2 : PF.val (cut3 g) = g.val := funext (cut3_law he hg hgd).2.2
  unfold prodDensity
  rw [e1, e2, cut3_atoms hf, cut3_atoms hg]

/-! ### pairs of pieces -/

theorem points_of_not_dirac {s : Seg ℝ} (h : s.isDirac = false) : s.points = s.inner := by
  cases s <;> first | rfl | simp [Seg.isDirac] at h

theorem coe_inner (s : Seg ℝ) : (fun x : ℝ => (x : EReal)) '' s.inner = Ioo (lo s) (hi s) := by
  ext y
  constructor
  · rintro ⟨x, hx, rfl⟩; exact hx
  · rintro ⟨h1, h2⟩
    induction y using EReal.rec with
    | bot => exact absurd h1 not_lt_bot
    | top => exact absurd h2 not_top_lt
    | coe x => exact ⟨x, ⟨h1, h2⟩, rfl⟩

theorem inner_convex (s : Seg ℝ) : s.inner.OrdConnected :=
  ⟨fun x hx y hy z hz => ⟨lt_of_lt_of_le hx.1 (EReal.coe_le_coe_iff.2 hz.1), lt_of_le_of_lt (EReal.coe_le_coe_iff.2 hz.2) hy.2⟩⟩

/-- near a corner there are products of inner points -/
theorem corner_near {si sj : Seg ℝ} (hi' : lo si < hi si) (hj : lo sj < hi sj) {c : EReal} (hc : c ∈ corners si sj) {U : Set EReal}
    (hU : IsOpen U) (hcU : c ∈ U) : ∃ s ∈ si.inner, ∃ t ∈ sj.inner, ((s * t : ℝ) : EReal) ∈ U := by
  obtain ⟨e, he, f, hf, h⟩ := mem_corners.1 hc
  unfold fmul at h
  split_ifs at h with hn
  push Not at hn
  simp only [Option.some.injEq] at h
  obtain ⟨n1, n2⟩ := hn
  have hcl : ∀ {s : Seg ℝ} {e : EReal}, lo s < hi s → e ∈ [lo s, hi s] → e ∈ closure (Ioo (lo s) (hi s)) := by
    intro s e hs he
    rw [closure_Ioo hs.ne]
    simp only [List.mem_cons, List.not_mem_nil, or_false] at he
    rcases he with rfl | rfl
    · exact ⟨le_rfl, hs.le⟩
    · exact ⟨hs.le, le_rfl⟩
  have hm : (e, f) ∈ closure (Ioo (lo si) (hi si) ×ˢ Ioo (lo sj) (hi sj)) := by
    rw [closure_prod_eq]; exact ⟨hcl hi' he, hcl hj hf⟩
  have hcont : ContinuousAt (fun p : EReal × EReal => p.1 * p.2) (e, f) := by
    apply EReal.continuousAt_mul
    · by_cases h0 : e = 0
      · exact .inr (n1 h0).2
      · exact .inl h0
    · by_cases h0 : e = 0
      · exact .inr (n1 h0).1
      · exact .inl h0
    · by_cases h0 : f = 0
      · exact .inl (n2 h0).2
      · exact .inr h0
    · by_cases h0 : f = 0
      · exact .inl (n2 h0).1
      · exact .inr h0
  have hnhds : (fun p : EReal × EReal => p.1 * p.2) ⁻¹' U ∈ nhds (e, f) := hcont (hU.mem_nhds (by dsimp only; rwa [h]))
  obtain ⟨⟨p, q⟩, hpq, hp, hq⟩ := mem_closure_iff_nhds.1 hm _ hnhds
  rw [← coe_inner] at hp hq
  obtain ⟨s, hs, rfl⟩ := hp
  obtain ⟨t, ht, rfl⟩ := hq
  exact ⟨s, hs, t, ht, by rw [EReal.coe_mul]; exact hpq⟩

/-- a pair found by comparing the corners contains two points with the product `x` -/
theorem points_of_test {si sj : Seg ℝ} (hwi : si.WF) (hwj : sj.WF) {x : ℝ} (h : TestMul x si sj) :
    ∃ s ∈ si.points, ∃ t ∈ sj.points, s * t = x := by
  rcases isDirac_cases si with hsi | ⟨a, m, rfl⟩
  · rcases isDirac_cases sj with hsj | ⟨b, n, rfl⟩
    · rw [points_of_not_dirac hsi, points_of_not_dirac hsj]
      obtain ⟨⟨c, hc, h1⟩, d, hd, h2⟩ := h
      obtain ⟨s, hs, t, ht, h1⟩ := corner_near (lo_lt_hi hsi hwi) (lo_lt_hi hsj hwj) hc isOpen_Iio h1
      obtain ⟨s', hs', t', ht', h2⟩ := corner_near (lo_lt_hi hsi hwi) (lo_lt_hi hsj hwj) hd isOpen_Ioi h2
      have hp : IsPreconnected ((fun p : ℝ × ℝ => p.1 * p.2) '' (si.inner ×ˢ sj.inner)) := by
        refine ((inner_convex si).isPreconnected.prod (inner_convex sj).isPreconnected).image _ (by fun_prop)
      have := hp.ordConnected.out ⟨(s, t), ⟨hs, ht⟩, rfl⟩ ⟨(s', t'), ⟨hs', ht'⟩, rfl⟩
        (show x ∈ Icc (s * t) (s' * t') from ⟨(EReal.coe_lt_coe_iff.1 h1).le, (EReal.coe_lt_coe_iff.1 h2).le⟩)
      obtain ⟨⟨p, q⟩, ⟨hp, hq⟩, e⟩ := this
      exact ⟨p, hp, q, hq, e⟩
    · by_cases hb : b = 0
      · subst hb; exact absurd (testMul_comm.1 h) test_dirac_zero
      · rw [points_of_not_dirac hsi]
        exact ⟨_, test_dirac hb hwi (testMul_comm.1 h), b, rfl, div_mul_cancel₀ x hb⟩
  · by_cases ha : a = 0
    · subst ha; exact absurd h test_dirac_zero
    · rcases isDirac_cases sj with hsj | ⟨b, n, rfl⟩
      · rw [points_of_not_dirac hsj]
        exact ⟨a, rfl, _, test_dirac ha hwj h, mul_div_cancel₀ x ha⟩
      · have := test_dirac ha hwj h
        exact absurd (this.1.trans this.2) (lt_irrefl _)

theorem points_closed {s : Seg ℝ} {x : ℝ} (h : x ∈ s.points) : lo s ≤ x ∧ (x : EReal) ≤ hi s := by
  rcases isDirac_cases s with hs | ⟨a, m, rfl⟩
  · rw [points_of_not_dirac hs] at h
    exact ⟨h.1.le, h.2.le⟩
  · obtain rfl : x = a := h
    exact ⟨le_rfl, le_rfl⟩

/-- two points with a product between break points: the pair is found -/
theorem test_of_points {P : Par} {f g : PF ℝ} (h : ProdArgs P f g) {a b : Ext ℝ} (hab : [a, b] <:+: pBreaks P f g) {si sj : Seg ℝ}
    (hi' : si ∈ cut3 f) (hj : sj ∈ cut3 g) {s t : ℝ} (hs : s ∈ si.points) (ht : t ∈ sj.points) (hx : s * t ∈ interE a b) :
    TestMul (s * t) si sj := by
  have no : ∀ {c : ℝ}, Ext.fin c ∈ pBreaks P f g → s * t ≠ c := by
    rintro c hc rfl
    exact not_inside h.breaks.1 hc a b hab hx
  have zero : ∀ {u : Seg ℝ} {r : ℝ}, CutSeg u → r ∈ u.points → r = 0 → ∃ m, u = .dirac 0 m := by
    intro u r hu hr h0
    subst h0
    rcases isDirac_cases u with hd | ⟨c, m, rfl⟩
    · rw [points_of_not_dirac hd] at hr
      exact absurd hr (hu 0 (by simp [prodPoints]))
    · obtain rfl : 0 = c := hr
      exact ⟨m, rfl⟩
  have hne : s * t ≠ 0 := by
    intro e
    rcases mul_eq_zero.1 e with h0 | h0
    · obtain ⟨m, rfl⟩ := zero (cut3_cut h.fwf hi') hs h0
      obtain ⟨q, hq⟩ := exists_fin_break (cut3_ne h.gne)
      exact no (by simpa using h.mem_fin (dirac_break hi') hq) e
    · obtain ⟨m, rfl⟩ := zero (cut3_cut h.gwf hj) ht h0
      obtain ⟨q, hq⟩ := exists_fin_break (cut3_ne h.fne)
      exact no (by simpa using h.mem_fin hq (dirac_break hj)) e
  rcases isDirac_cases si with hsi | ⟨c, m, rfl⟩
  · rw [points_of_not_dirac hsi] at hs
    exact test_of hs.1 hs.2 (points_closed ht).1 (points_closed ht).2 hne
  · rcases isDirac_cases sj with hsj | ⟨d, n, rfl⟩
    · rw [points_of_not_dirac hsj] at ht
      have := test_of (si := sj) (sj := .dirac c m) ht.1 ht.2 (points_closed hs).1 (points_closed hs).2 (by rwa [mul_comm])
      rw [mul_comm]
      exact testMul_comm.1 this
    · obtain rfl : s = c := hs
      obtain rfl : t = d := ht
      exact absurd rfl (no (h.mem_fin (dirac_break hi') (dirac_break hj)))

end Conv
end Pacal
