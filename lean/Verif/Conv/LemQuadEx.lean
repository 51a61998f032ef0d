import Verif.Conv.LemQuadMM
import Verif.Conv.PropsSum
import Verif.Conv.PropsProd
import Verif.Conv.PropsDiv
import Verif.Conv.PropsMinMax

/-! Lemmas for the examples of C92: a quadrature with a relative error. -/

namespace Pacal
namespace Conv
open MeasureTheory Set Transform Breaks

/-- the quadrature `q` with the relative error `c - 1` -/
noncomputable def scaleQ (c : ℝ) (q : Quad) : Quad := fun g a b => (c * (q g a b).1, (q g a b).2)

/-- the parameters `P` with this quadrature -/
noncomputable def relPar (c : ℝ) (P : Par) : Par := { P with q := scaleQ c P.q }

theorem wideSum_scale (c : ℝ) (q : Quad) (f : ℝ → ℝ) (node : ℕ → ℝ) (n : ℕ) :
    (wideSum (scaleQ c q) f node n).1 = c * (wideSum q f node n).1 := by
  unfold wideSum
  induction n with
  | zero => simp
  | succ n ih => 
    rw [List.range_succ, List.foldl_append, List.foldl_append]
    simp only [List.foldl_cons, List.foldl_nil, ih]
    simp only [scaleQ]
    ring

theorem wide_scale (c : ℝ) (q : Quad) (k : ℝ) (f : ℝ → ℝ) (a b : EReal) :
    (wide (scaleQ c q) k f a b).1 = c * (wide q k f a b).1 := by
  unfold wide wideFin
  split_ifs <;> first | exact wideSum_scale .. | rfl

theorem segint_scale (c : ℝ) (q : Quad) (p : QPar) (f : ℝ → ℝ) (L U : EReal) (m i l u : Bool) :
    (segint (scaleQ c q) p f L U m i l u).map Prod.fst = ((segint q p f L U m i l u).map Prod.fst).map (c * ·) := by
  unfold segint
  simp only
  split_ifs <;> simp only [Except.map, wide_scale, mul_zero]
  · congr 1
    simp only [xnP, xnN, scaleQ]
    ring
  all_goals rfl

theorem add2_scale {c : ℝ} {a a' b b' : Except PyErr (ℝ × ℝ)} (h1 : a'.map Prod.fst = (a.map Prod.fst).map (c * ·))
    (h2 : b'.map Prod.fst = (b.map Prod.fst).map (c * ·)) : add2 a' b' = (add2 a b).map (c * ·) := by
  unfold add2
  rcases a with e | a <;> rcases a' with e' | a' <;> rcases b with e1 | b <;> rcases b' with e1' | b' <;>
    simp [Except.map, Except.bind] at h1 h2 ⊢ <;> simp_all [mul_add]

theorem guess_scale (c : ℝ) (q : Quad) (f : ℝ → ℝ) (a b e : ℝ) : (guess (scaleQ c q) f a b e).1 = c * (guess q f a b e).1 := by
  unfold guess
  split_ifs <;> rfl

/-- a quadrature with a relative error has this error for every sum of two pieces -/
theorem contSum_scale (c : ℝ) (P : Par) (x : ℝ) (si sj : Seg ℝ) :
    contSum (relPar c P) x si sj = (contSum P x si sj).map (c * ·) := by
  have e1 : (relPar c P).q = scaleQ c P.q := rfl
  have e2 : (relPar c P).qp = P.qp := rfl
  have e3 : (relPar c P).poleEps = P.poleEps := rfl
  unfold contSum
  simp only [e1, e2, e3]
  split_ifs <;> first
    | exact segint_scale ..
    | exact add2_scale (segint_scale ..) (segint_scale ..)
    | (simp only [Except.map, guess_scale, mul_add]; done)
    | rfl

theorem points_meets {si sj : Seg ℝ} (hsi : si.isDirac = false) (hsj : sj.isDirac = false) {x : ℝ}
    (h : ∃ s ∈ si.points, ∃ t ∈ sj.points, s + t = x) : Meets x si sj := by
  obtain ⟨s, hs, t, ht, rfl⟩ := h
  rw [points_not hsi] at hs
  rw [points_not hsj] at ht
  exact Meets.of_mem hs (by rwa [add_sub_cancel_left])

theorem approx_rel {c v V : ℝ} {r r' : Except PyErr ℝ} (h : r = .ok v) (h' : r' = r.map (c * ·)) (h0 : 0 ≤ v) (hv : v ≤ V) :
    Approx (|c - 1| * V) r' v := by
  refine ⟨c * v, by rw [h', h]; rfl, ?_⟩
  have e : c * v - v = (c - 1) * v := by ring
  rw [e, abs_mul, abs_of_nonneg h0]
  exact mul_le_mul_of_nonneg_left hv (abs_nonneg _)

/-- a product of two functions, one of them bounded -/
theorem integral_bound {u w : ℝ → ℝ} {B : ℝ} (hu : Integrable u) (hu0 : ∀ t, 0 ≤ u t) (hw : ∀ t, u t ≠ 0 → 0 ≤ w t ∧ w t ≤ B) :
    0 ≤ ∫ t, u t * w t ∧ ∫ t, u t * w t ≤ B * ∫ t, u t := by
  have h0 : ∀ t, 0 ≤ u t * w t := fun t => by
    by_cases h : u t = 0
    · rw [h, zero_mul]
    · exact mul_nonneg (hu0 t) (hw t h).1
  refine ⟨integral_nonneg h0, ?_⟩
  rw [← integral_const_mul]
  refine integral_mono_of_nonneg (.of_forall h0) (hu.const_mul B) (.of_forall fun t => ?_)
  show u t * w t ≤ B * u t
  by_cases h : u t = 0
  · simp [h]
  · rw [mul_comm]
    exact mul_le_mul_of_nonneg_right (hw t h).2 (hu0 t)

/-- the sum of two pieces with a relative error, if one density is bounded -/
theorem contSum_rel {P : Par} (hP : ExactQ P.q P.qp) {c B : ℝ} {si sj : Seg ℝ} (hwi : si.WF) (hwj : sj.WF) (hdi : si.Dens)
    (hdj : sj.Dens) (hsi : si.isDirac = false) (hsj : sj.isDirac = false) (hb : ∀ x, 0 ≤ sj.val x ∧ sj.val x ≤ B)
    (hi0 : ∀ x, 0 ≤ si.val x) :
    ∀ᵐ x, (∃ s ∈ si.points, ∃ t ∈ sj.points, s + t = x) →
      Approx (|c - 1| * (B * ∫ t, si.val t)) (contSum (relPar c P) x si sj) (∫ t, si.val t * sj.val (x - t)) := by
  filter_upwards [(pairSum_spec hP hwi hwj hdi hdj).eq] with x h1 h2
  have h3 := h1 (points_meets hsi hsj h2)
  have h4 : contSum P x si sj = .ok (∫ t, si.val t * sj.val (x - t)) := by
    rw [val_integral]
    rw [pairK, if_pos ⟨hsi, hsj⟩, pairSum, if_pos ⟨hsi, hsj⟩] at h3
    exact h3
  obtain ⟨k1, k2⟩ := integral_bound (w := fun t => sj.val (x - t)) (val_integrable hdi) hi0 fun t _ => hb (x - t)
  exact approx_rel h4 (contSum_scale ..) k1 k2

theorem contProd_scale (c : ℝ) (P : Par) (x : ℝ) (si sj : Seg ℝ) :
    contProd (relPar c P) x si sj = (contProd P x si sj).map (c * ·) := by
  have e1 : (relPar c P).q = scaleQ c P.q := rfl
  have e2 : (relPar c P).qp = P.qp := rfl
  unfold contProd
  simp only [e1, e2]
  have hb : ∀ {a a' b b' : Except PyErr ℝ}, a' = a.map (c * ·) → b' = b.map (c * ·) →
      (a'.bind fun i1 => b'.bind fun i => .ok (i + i1)) = (a.bind fun i1 => b.bind fun i => .ok (i + i1) : Except PyErr ℝ).map (c * ·) := by
    rintro (e | a) a' (e' | b) b' rfl rfl <;> simp [Except.map, Except.bind, mul_add]
  split_ifs <;> first
    | exact segint_scale ..
    | exact hb (segint_scale ..) (segint_scale ..)

theorem contDiv_scale (c : ℝ) (P : Par) (x : ℝ) (si sj : Seg ℝ) (second : Bool) :
    (if second then contDiv2 (relPar c P) x si sj else contDiv1 (relPar c P) x si sj) =
      (if second then contDiv2 P x si sj else contDiv1 P x si sj).map (c * ·) := by
  cases second <;> exact segint_scale ..

theorem contProd_rel {P : Par} {f g : PF ℝ} (h : ProdArgs P f g) (hP : ExactQ P.q P.qp) {c B : ℝ} (hf : PF.Dens f) (hg : PF.Dens g)
    {si sj : Seg ℝ} (hi' : si ∈ cut3 f) (hj : sj ∈ cut3 g) (hsi : si.isDirac = false) (hsj : sj.isDirac = false)
    (hb : ∀ x, 0 ≤ sj.val x ∧ sj.val x ≤ B) (hi0 : ∀ x, 0 ≤ si.val x) (hi1 : ∀ x, si.val x ≠ 0 → 1 ≤ x) :
    ∀ᵐ x, (∃ s ∈ si.points, ∃ t ∈ sj.points, s * t = x) →
      Approx (|c - 1| * (B * ∫ t, si.val t)) (contProd (relPar c P) x si sj) (∫ t, si.val t * sj.val (x / t) / |t|) := by
  have hwi := (cut3_wf h.fwf).seg si hi'
  have hdi := (cut3_law h.eps h.fwf hf).1 si hi'
  filter_upwards [(pairProd_spec hP hwi ((cut3_wf h.gwf).seg sj hj) hdi
    ((cut3_law h.eps h.gwf hg).1 sj hj) (cut3_cut h.fwf hi') (cut3_cut h.gwf hj)).eq, ae_ne_real 0] with x h1 hx0 h2
  have ht : TestMul x si sj := by
    obtain ⟨s, hs, t, ht, rfl⟩ := h2
    rw [points_of_not_dirac hsi] at hs
    exact test_of hs.1 hs.2 (points_closed ht).1 (points_closed ht).2 hx0
  have h3 := h1 ht
  have h4 : contProd P x si sj = .ok (∫ t, si.val t * sj.val (x / t) / |t|) := by
    rw [val_integral_mul si sj hx0]
    rw [prodK, if_pos ⟨hsi, hsj⟩, pairProd, if_pos ⟨hsi, hsj⟩] at h3
    exact h3
  obtain ⟨k1, k2⟩ := integral_bound (B := B) (w := fun t => sj.val (x / t) / |t|) (val_integrable hdi) hi0 fun t ht => by
    have := hi1 t ht
    have h' : 1 ≤ |t| := this.trans (le_abs_self t)
    exact ⟨div_nonneg (hb _).1 (abs_nonneg _), (div_le_self (hb _).1 h').trans (hb _).2⟩
  simp only [← mul_div_assoc] at k1 k2
  exact approx_rel h4 (contProd_scale ..) k1 k2

theorem contDiv_rel {P : Par} {f g : PF ℝ} (h : DivArgs P f g) (hP : ExactQ P.q P.qp) {c B : ℝ} (hf : PF.Dens f) (hg : PF.Dens g)
    {si sj : Seg ℝ} (hi' : si ∈ cutD f) (hj : sj ∈ cutD g) (hsi : si.isDirac = false) (hsj : sj.isDirac = false)
    (hb : ∀ x, 0 ≤ si.val x ∧ si.val x ≤ B) (hi0 : ∀ x, 0 ≤ sj.val x) (hi1 : ∀ x, sj.val x ≠ 0 → |x| ≤ 1) (arr : Bool) :
    ∀ᵐ x, (∃ s ∈ si.points, ∃ t ∈ sj.points, t ≠ 0 ∧ s / t = x) →
      Approx (|c - 1| * (B * ∫ t, sj.val t))
        (if arr && !decide (|x| < 1) then contDiv2 (relPar c P) x si sj else contDiv1 (relPar c P) x si sj)
        (∫ t, si.val (x * t) * sj.val t * |t|) := by
  have hdj := (cutD_law h.eps h.gwf hg).1 sj hj
  filter_upwards [(h.pair hP hf hg arr hi' hj).eq, ae_ne_real 0] with x h1 hx0 h2
  have ht : TestDiv x si sj := by
    obtain ⟨s, hs, t, ht, ht0, rfl⟩ := h2
    have e : s / t * t = s := div_mul_cancel₀ s ht0
    obtain ⟨p1, p2, p3⟩ := points_le ht
    obtain ⟨q1, q2, -⟩ := points_le hs
    rw [← e] at q1 q2
    exact testDiv_of hx0 ((cutD_wf h.gwf).seg sj hj) p1 p2 q1 q2 (.inl (p3 hsj))
  have h3 := h1 ht
  have h4 : (if arr && !decide (|x| < 1) then contDiv2 P x si sj else contDiv1 P x si sj) = .ok (∫ t, si.val (x * t) * sj.val t * |t|) := by
    rw [val_integral_div si sj hx0]
    rw [divK, if_pos ⟨hsi, hsj⟩, funDiv, pairDiv, if_pos ⟨hsi, hsj⟩] at h3
    exact h3
  obtain ⟨k1, k2⟩ := integral_bound (B := B) (w := fun t => si.val (x * t) * |t|) (val_integrable hdj) hi0 fun t ht => by
    have h' := hi1 t ht
    refine ⟨mul_nonneg (hb _).1 (abs_nonneg _), ?_⟩
    exact (mul_le_of_le_one_right (hb _).1 h').trans (hb _).2
  have e : ∀ t, sj.val t * (si.val (x * t) * |t|) = si.val (x * t) * sj.val t * |t| := fun t => by ring
  simp only [e] at k1 k2
  exact approx_rel h4 (contDiv_scale ..) k1 k2

theorem half_scale {c : ℝ} {i i' : Except PyErr ℝ} (h : i' = i.map (c * ·)) (x : ℝ) {si sj : Seg ℝ} (hsi : si.isDirac = false)
    (hsj : sj.isDirac = false) : halfPair i' x si sj = (halfPair i x si sj).map (c * ·) := by
  unfold halfPair
  split_ifs <;> simp_all [Except.map]

theorem add_scale {c : ℝ} {a a' b b' : Except PyErr ℝ} (h : a' = a.map (c * ·)) (h' : b' = b.map (c * ·)) :
    (a'.bind fun i => b'.bind fun j => .ok (i + j)) = (a.bind fun i => b.bind fun j => .ok (i + j) : Except PyErr ℝ).map (c * ·) := by
  subst h h'
  rcases a with e | a <;> rcases b with e' | b <;> simp [Except.map, Except.bind, mul_add]

theorem pairMin_scale (c : ℝ) (P : Par) (x : ℝ) {si sj : Seg ℝ} (hsi : si.isDirac = false) (hsj : sj.isDirac = false) :
    pairMin (relPar c P) x si sj = (pairMin P x si sj).map (c * ·) :=
  add_scale (half_scale (segint_scale ..) x hsi hsj) (half_scale (segint_scale ..) x hsj hsi)

theorem pairMax_scale (c : ℝ) (P : Par) (x : ℝ) {si sj : Seg ℝ} (hsi : si.isDirac = false) (hsj : sj.isDirac = false) :
    pairMax (relPar c P) x si sj = (pairMax P x si sj).map (c * ·) :=
  add_scale (half_scale (segint_scale ..) x hsi hsj) (half_scale (segint_scale ..) x hsj hsi)

theorem approx_mono {ε ε' v : ℝ} {r : Except PyErr ℝ} (h : Approx ε r v) (he : ε ≤ ε') : Approx ε' r v := by
  obtain ⟨w, h1, h2⟩ := h
  exact ⟨w, h1, h2.trans he⟩

/-- the parts of a constant piece -/
theorem part_of_const {a b c : ℝ} (hc : 0 ≤ c) (hab : a ≤ b) {l : PF ℝ} (hd : PF.Dens l) (hn : ∀ s ∈ l, s.isDirac = false)
    (hfn : ∀ s ∈ l, ∀ x, s.fn x = c) (hv : ∀ x, l.val x = PF.val [.const a b c] x) {s : Seg ℝ} (hs : s ∈ l) :
    (∀ x, 0 ≤ s.val x ∧ s.val x ≤ c) ∧ (∀ x, s.val x ≠ 0 → a ≤ x ∧ x < b) ∧ ∫ x, s.val x ≤ c * (b - a) := by
  have h0 : ∀ t ∈ l, ∀ x, 0 ≤ t.val x ∧ t.val x ≤ c := by
    intro t ht x
    unfold Seg.val
    split_ifs
    · rw [hfn t ht]; exact ⟨hc, le_rfl⟩
    · exact ⟨le_rfl, hc⟩
  have hle : ∀ x, s.val x ≤ (Seg.const a b c).val x := by
    intro x
    have e : PF.val [Seg.const a b c] x = (Seg.const a b c).val x := by simp [PF.val]
    rw [← e, ← hv]
    refine List.single_le_sum (l := l.map (Seg.val x)) ?_ _ (List.mem_map_of_mem hs)
    intro y hy
    obtain ⟨t, ht, rfl⟩ := List.mem_map.1 hy
    exact (h0 t ht x).1
  refine ⟨h0 s hs, fun x hx => ?_, ?_⟩
  · by_contra hcon
    have := hle x
    rw [const_val, if_neg hcon] at this
    exact hx (le_antisymm this (h0 s hs x).1)
  · refine (integral_mono (val_integrable (hd s hs)) (val_integrable (const_dens a b hc)) hle).trans ?_
    rw [← const_mass a b hc hab, Seg.law_real rfl (const_dens a b hc) MeasurableSet.univ, setIntegral_univ]

theorem single_dens {a b c : ℝ} (hc : 0 ≤ c) : PF.Dens [Seg.const a b c] := by
  intro s hs; obtain rfl := List.mem_singleton.1 hs; exact const_dens _ _ hc

theorem single_wf {eps a b c : ℝ} (hab : a < b) : PF.WF eps [Seg.const a b c] :=
  ⟨by intro s hs; obtain rfl := List.mem_singleton.1 hs; exact hab, List.pairwise_singleton ..⟩

theorem single_cont {a b c : ℝ} : ∀ s ∈ [Seg.const a b c], s.isDirac = false := by
  intro s hs; obtain rfl := List.mem_singleton.1 hs; rfl

theorem no_dirac {a b c : ℝ} {l : PF ℝ} (h : ∀ x m, Seg.dirac x m ∈ l ↔ Seg.dirac x m ∈ [Seg.const a b c]) : ∀ s ∈ l, s.isDirac = false := by
  intro s hs
  rcases isDirac_cases s with h1 | ⟨x, m, rfl⟩
  · exact h1
  · simpa using (h x m).1 hs

/-- the parts of a constant piece that is split at points -/
theorem cut3_part {eps a b c : ℝ} (he : 0 ≤ eps) (hc : 0 ≤ c) (hab : a < b) {s : Seg ℝ} (hs : s ∈ cut3 [.const a b c]) :
    (∀ x, 0 ≤ s.val x ∧ s.val x ≤ c) ∧ (∀ x, s.val x ≠ 0 → a ≤ x ∧ x < b) ∧ ∫ x, s.val x ≤ c * (b - a) := by
  obtain ⟨h1, -, h2⟩ := cut3_law he (single_wf hab) (single_dens (a := a) (b := b) hc)
  refine part_of_const hc hab.le h1 (no_dirac fun x m => cut3_dirac (single_wf (eps := eps) hab)) ?_ h2 hs
  intro t ht x
  obtain ⟨u, hu, htu⟩ := List.mem_flatMap.1 ht
  obtain rfl := List.mem_singleton.1 hu
  rw [(splitSeg_ok eps prodPoints_sorted (s := .const a b c) hab).fn t htu]
  rfl

theorem cutAt_part {eps a b c : ℝ} (he : 0 ≤ eps) (hc : 0 ≤ c) (hab : a < b) {g : PF ℝ} {s : Seg ℝ} (hs : s ∈ cutAt [.const a b c] g) :
    (∀ x, 0 ≤ s.val x ∧ s.val x ≤ c) ∧ (∀ x, s.val x ≠ 0 → a ≤ x ∧ x < b) ∧ ∫ x, s.val x ≤ c * (b - a) := by
  obtain ⟨h1, -, h2⟩ := cutAt_law (g := g) he (single_wf hab) (single_dens (a := a) (b := b) hc)
  refine part_of_const hc hab.le h1 (no_dirac fun x m => cutAt_dirac (single_wf (eps := eps) hab)) ?_ h2 hs
  intro t ht x
  obtain ⟨u, hu, htu⟩ := List.mem_flatMap.1 ht
  obtain rfl := List.mem_singleton.1 hu
  rw [(splitSeg_ok eps (finites_sorted (getBreaks_sorted g)) (s := .const a b c) hab).fn t htu]
  rfl

theorem cutD_part {eps a b c : ℝ} (he : 0 ≤ eps) (hc : 0 ≤ c) (hab : a < b) {s : Seg ℝ} (hs : s ∈ cutD [.const a b c]) :
    (∀ x, 0 ≤ s.val x ∧ s.val x ≤ c) ∧ (∀ x, s.val x ≠ 0 → a ≤ x ∧ x < b) ∧ ∫ x, s.val x ≤ c * (b - a) := by
  obtain ⟨h1, -, h2⟩ := cutD_law he (single_wf hab) (single_dens (a := a) (b := b) hc)
  have hn := no_dirac (l := cutD [.const a b c]) fun x m => cutD_dirac (single_wf (eps := eps) (c := c) hab)
  refine part_of_const hc hab.le h1 hn ?_ h2 hs
  intro t ht x
  obtain ⟨u, hu, -, htu⟩ := cutD_fn (single_wf (eps := eps) hab) ht (hn t ht)
  obtain rfl := List.mem_singleton.1 hu
  rw [htu]
  rfl

/-- the probability of a part -/
theorem part_law {s : Seg ℝ} {V : ℝ} (hd : s.Dens) (hn : s.isDirac = false) (hv : ∫ x, s.val x ≤ V) {A : Set ℝ} (hA : MeasurableSet A)
    (h0 : ∀ x, 0 ≤ s.val x) : 0 ≤ s.law.real A ∧ s.law.real A ≤ V := by
  refine ⟨measureReal_nonneg, ?_⟩
  rw [Seg.law_real hn hd hA]
  exact (setIntegral_le_integral (val_integrable hd) (.of_forall h0)).trans hv

end Conv
end Pacal
