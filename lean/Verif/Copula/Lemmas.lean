import Verif.Copula.Spec
import Mathlib.Analysis.Convex.Function
import Mathlib.Analysis.Calculus.Deriv.Mul
import Mathlib.Analysis.Calculus.Deriv.Add
import Mathlib.Analysis.Calculus.Deriv.Comp

/-!
Archimedean generators and mixed derivatives.
-/

namespace Pacal.Copula
open Set Filter Topology

theorem convex_le {S : Set ℝ} {f : ℝ → ℝ} (hc : ConvexOn ℝ S f) {x y : ℝ} (hx : x ∈ S) (hy : y ∈ S) (p q : ℝ) (hp : 0 ≤ p)
    (hq : 0 ≤ q) (hpq : p + q = 1) : f (p * x + q * y) ≤ p * f x + q * f y := by
  have := hc.2 hx hy hp hq hpq
  simpa only [smul_eq_mul] using this

section Gen
variable {φ ψ : ℝ → ℝ}

theorem Generator.nonneg (h : Generator φ ψ) {t : ℝ} (h0 : 0 < t) (h1 : t ≤ 1) : 0 ≤ φ t := by
  rw [← h.one]
  exact h.anti.antitoneOn ⟨h0, h1⟩ ⟨one_pos, le_refl 1⟩ h1

theorem Generator.pos (h : Generator φ ψ) {t : ℝ} (h0 : 0 < t) (h1 : t < 1) : 0 < φ t := by
  rw [← h.one]
  exact h.anti ⟨h0, h1.le⟩ ⟨one_pos, le_refl 1⟩ h1

theorem Generator.inv_zero (h : Generator φ ψ) : ψ 0 = 1 := by
  rw [← h.one]
  exact h.left_inv 1 one_pos le_rfl

/-- comparing through the generator -/
theorem Generator.le_iff (h : Generator φ ψ) {t : ℝ} (h0 : 0 < t) (h1 : t ≤ 1) {s : ℝ} (hs : 0 ≤ s) :
    t ≤ ψ s ↔ s ≤ φ t := by
  obtain ⟨a, b⟩ := h.range s hs
  conv_rhs => rw [← h.right_inv s hs]
  exact (h.anti.le_iff_ge ⟨a, b⟩ ⟨h0, h1⟩).symm

theorem Generator.ge_iff (h : Generator φ ψ) {t : ℝ} (h0 : 0 < t) (h1 : t ≤ 1) {s : ℝ} (hs : 0 ≤ s) :
    ψ s ≤ t ↔ φ t ≤ s := by
  obtain ⟨a, b⟩ := h.range s hs
  conv_rhs => rw [← h.right_inv s hs]
  exact (h.anti.le_iff_ge ⟨h0, h1⟩ ⟨a, b⟩).symm

theorem Generator.inv_anti (h : Generator φ ψ) {s t : ℝ} (hs : 0 ≤ s) (hst : s ≤ t) : ψ t ≤ ψ s := by
  obtain ⟨a, b⟩ := h.range s hs
  rw [h.ge_iff a b (hs.trans hst), h.right_inv s hs]
  exact hst

/-- the inverse is convex -/
theorem Generator.inv_convex (h : Generator φ ψ) : ConvexOn ℝ (Ici 0) ψ := by
  refine ⟨convex_Ici 0, ?_⟩
  intro s hs t ht a b ha hb hab
  simp only [mem_Ici, smul_eq_mul] at *
  obtain ⟨s0, s1⟩ := h.range s hs
  obtain ⟨t0, t1⟩ := h.range t ht
  have hm := (convex_Ioc (𝕜 := ℝ) (0 : ℝ) 1) ⟨s0, s1⟩ ⟨t0, t1⟩ ha hb hab
  have hc := h.convex.2 ⟨s0, s1⟩ ⟨t0, t1⟩ ha hb hab
  simp only [smul_eq_mul] at hm hc
  rw [h.right_inv s hs, h.right_inv t ht] at hc
  rwa [h.ge_iff hm.1 hm.2 (by positivity)]

/-- two points between the extremes -/
theorem Generator.two (h : Generator φ ψ) {a b : ℝ} (ha : a ≤ 1) (hb : b ≤ 1) (hw : 0 < a + b - 1) :
    φ a + φ b ≤ φ (a + b - 1) := by
  have ha0 : 0 < a := by linarith
  have hb0 : 0 < b := by linarith
  rcases eq_or_lt_of_le (show a + b - 1 ≤ 1 by linarith) with e | e
  · have : a = 1 := by linarith
    have : b = 1 := by linarith
    subst a b
    rw [show (1:ℝ) + 1 - 1 = 1 by norm_num, h.one]
    norm_num
  · have hd : 0 < 1 - (a + b - 1) := by linarith
    have h1 := convex_le h.convex (x := a + b - 1) (y := 1) ⟨hw, e.le⟩ ⟨one_pos, le_refl 1⟩
      ((1 - a) / (1 - (a + b - 1))) ((1 - b) / (1 - (a + b - 1)))
      (div_nonneg (by linarith) hd.le) (div_nonneg (by linarith) hd.le) (by field_simp; ring)
    have h2 := convex_le h.convex (x := a + b - 1) (y := 1) ⟨hw, e.le⟩ ⟨one_pos, le_refl 1⟩
      ((1 - b) / (1 - (a + b - 1))) ((1 - a) / (1 - (a + b - 1)))
      (div_nonneg (by linarith) hd.le) (div_nonneg (by linarith) hd.le) (by field_simp; ring)
    rw [h.one] at h1 h2
    have e1 : (1 - a) / (1 - (a + b - 1)) * (a + b - 1) + (1 - b) / (1 - (a + b - 1)) * 1 = a := by
      field_simp
      ring
    have e2 : (1 - b) / (1 - (a + b - 1)) * (a + b - 1) + (1 - a) / (1 - (a + b - 1)) * 1 = b := by
      field_simp
      ring
    rw [e1] at h1
    rw [e2] at h2
    have e3 : (1 - a) / (1 - (a + b - 1)) * φ (a + b - 1) + (1 - b) / (1 - (a + b - 1)) * φ (a + b - 1)
        = φ (a + b - 1) := by
      rw [← add_mul, ← add_div, show 1 - a + (1 - b) = 1 - (a + b - 1) by ring, div_self hd.ne', one_mul]
    linarith

theorem Generator.many (h : Generator φ ψ) : ∀ X : List ℝ, (∀ x ∈ X, 0 < x ∧ x ≤ 1) → 0 < X.sum - X.length + 1 →
    (X.map φ).sum ≤ φ (X.sum - X.length + 1)
  | [], _, _ => by simp [h.one]
  | x :: X, hX, hw => by
    have hx := hX x (List.mem_cons_self ..)
    have hX' : ∀ y ∈ X, 0 < y ∧ y ≤ 1 := fun y hy => hX y (List.mem_cons_of_mem _ hy)
    have hle : X.sum - X.length + 1 ≤ 1 := by
      have : X.sum ≤ X.length • (1 : ℝ) := List.sum_le_card_nsmul X 1 fun y hy => (hX' y hy).2
      rw [nsmul_eq_mul, mul_one] at this
      linarith
    simp only [List.sum_cons, List.length_cons, Nat.cast_add, Nat.cast_one, List.map_cons] at *
    have ih := h.many X hX' (by linarith)
    have := h.two hx.2 hle (by linarith)
    rw [show x + (X.sum - X.length + 1) - 1 = x + X.sum - (X.length + 1) + 1 by ring] at this
    linarith

theorem Generator.sum_nonneg (h : Generator φ ψ) {X : List ℝ} (hX : ∀ x ∈ X, 0 < x ∧ x ≤ 1) : 0 ≤ (X.map φ).sum := by
  refine List.sum_nonneg fun y hy => ?_
  obtain ⟨x, hx, rfl⟩ := List.mem_map.1 hy
  exact h.nonneg (hX x hx).1 (hX x hx).2

theorem Generator.le_sum (h : Generator φ ψ) {X : List ℝ} (hX : ∀ x ∈ X, 0 < x ∧ x ≤ 1) {x : ℝ} (hx : x ∈ X) :
    φ x ≤ (X.map φ).sum := by
  refine List.single_le_sum (fun y hy => ?_) _ (List.mem_map_of_mem hx)
  obtain ⟨z, hz, rfl⟩ := List.mem_map.1 hy
  exact h.nonneg (hX z hz).1 (hX z hz).2

end Gen

/-! ### the Archimedean copula -/

theorem foldl_add_top (f : ℝ → WithTop ℝ) : ∀ (X : List ℝ), X.foldl (fun s x => s + f x) ⊤ = ⊤
  | [] => rfl
  | x :: X => by rw [List.foldl_cons, top_add]; exact foldl_add_top f X

theorem foldl_add_zero {f : ℝ → WithTop ℝ} (hf : f 0 = ⊤) : ∀ (X : List ℝ) (s : WithTop ℝ), 0 ∈ X →
    X.foldl (fun s x => s + f x) s = ⊤
  | [], _, h => by simp at h
  | x :: X, s, h => by
    rw [List.foldl_cons]
    by_cases hx : x = 0
    · rw [hx, hf, add_top]
      exact foldl_add_top f X
    · refine foldl_add_zero hf X _ ?_
      rcases List.mem_cons.1 h with h | h
      · exact absurd h.symm hx
      · exact h

theorem foldl_add_coe {f : ℝ → WithTop ℝ} {g : ℝ → ℝ} : ∀ (X : List ℝ) (s : ℝ), (∀ x ∈ X, f x = (g x : WithTop ℝ)) →
    X.foldl (fun s x => s + f x) (s : WithTop ℝ) = ((s + (X.map g).sum : ℝ) : WithTop ℝ)
  | [], s, _ => by simp
  | x :: X, s, h => by
    rw [List.foldl_cons, h x (List.mem_cons_self ..), ← WithTop.coe_add,
      foldl_add_coe X (s + g x) fun y hy => h y (List.mem_cons_of_mem _ hy), List.map_cons, List.sum_cons, add_assoc]

theorem foldl_sum (f : ℝ → ℝ) : ∀ (X : List ℝ) (s : ℝ), X.foldl (fun s x => s + f x) s = s + (X.map f).sum
  | [], s => by simp
  | x :: X, s => by rw [List.foldl_cons, foldl_sum f X, List.map_cons, List.sum_cons, add_assoc]

theorem foldl_prod {α : Type} (f : α → ℝ) : ∀ (X : List α) (s : ℝ), X.foldl (fun s x => s * f x) s = s * (X.map f).prod
  | [], s => by simp
  | x :: X, s => by rw [List.foldl_cons, foldl_prod f X, List.map_cons, List.prod_cons, mul_assoc]

/-- the value computed by `archCcdf` -/
noncomputable def Gen.val (g : Gen) (X : List ℝ) : ℝ := g.npInv (if g.sum X < 0 then 0 else g.sum X)

theorem archCcdf_ok {g : Gen} {d : ℕ} {X : List ℝ} (h : X.length = d) : archCcdf g d X = .ok (g.val X) := by
  rw [archCcdf, if_pos h]
  rfl

theorem Gen.Regular.sum_zero {g : Gen} (hg : g.Regular) {X : List ℝ} (h0 : 0 ∈ X) : g.sum X = ⊤ :=
  foldl_add_zero hg.fi_zero X 0 h0

theorem Gen.Regular.sum_pos {g : Gen} (hg : g.Regular) {X : List ℝ} (hX : ∀ x ∈ X, 0 < x ∧ x ≤ 1) :
    g.sum X = (((X.map g.fi).sum : ℝ) : WithTop ℝ) := by
  have := foldl_add_coe X 0 (f := g.npFi) (g := g.fi) fun x hx => hg.fi_pos x (hX x hx).1 (hX x hx).2
  rw [zero_add] at this
  exact this

theorem Gen.Regular.val_zero {g : Gen} (hg : g.Regular) {X : List ℝ} (h0 : 0 ∈ X) : g.val X = 0 := by
  rw [Gen.val, hg.sum_zero h0, if_neg (by simp), hg.inv_top]

theorem Gen.Regular.val_pos {g : Gen} (hg : g.Regular) {X : List ℝ} (hX : ∀ x ∈ X, 0 < x ∧ x ≤ 1) :
    g.val X = g.inv ((X.map g.fi).sum) := by
  have h0 := hg.gen.sum_nonneg hX
  rw [Gen.val, hg.sum_pos hX, if_neg, hg.inv_coe]
  rw [not_lt]
  exact_mod_cast h0

theorem pos_of_not_mem {X : List ℝ} (hX : InCube X) (h0 : 0 ∉ X) : ∀ x ∈ X, 0 < x ∧ x ≤ 1 := by
  intro x hx
  refine ⟨lt_of_le_of_ne (hX x hx).1 ?_, (hX x hx).2⟩
  rintro rfl
  exact h0 hx

theorem mem_set_replicate {d i : ℕ} {u x : ℝ} (hx : x ∈ (List.replicate d (1 : ℝ)).set i u) : x = 1 ∨ x = u := by
  rcases List.mem_or_eq_of_mem_set hx with h | h
  · exact Or.inl (List.eq_of_mem_replicate h)
  · exact Or.inr h

theorem sum_set_replicate (f : ℝ → ℝ) (h1 : f 1 = 0) (u : ℝ) : ∀ (d i : ℕ), i < d →
    (((List.replicate d (1 : ℝ)).set i u).map f).sum = f u
  | 0, _, h => absurd h (Nat.not_lt_zero _)
  | d + 1, 0, _ => by simp [List.replicate_succ, h1]
  | d + 1, i + 1, h => by
    rw [List.replicate_succ, List.set_cons_succ, List.map_cons, List.sum_cons, h1, zero_add]
    exact sum_set_replicate f h1 u d i (Nat.lt_of_succ_lt_succ h)

theorem sum_le_of_zero {X : List ℝ} (hX : InCube X) (h0 : 0 ∈ X) : X.sum ≤ X.length - 1 := by
  induction X with
  | nil => simp at h0
  | cons x X ih =>
    have hX' : InCube X := fun y hy => hX y (List.mem_cons_of_mem _ hy)
    have hs : X.sum ≤ X.length := by
      have : X.sum ≤ X.length • (1 : ℝ) := List.sum_le_card_nsmul X 1 fun y hy => (hX' y hy).2
      rwa [nsmul_eq_mul, mul_one] at this
    simp only [List.sum_cons, List.length_cons, Nat.cast_add, Nat.cast_one]
    rcases List.mem_cons.1 h0 with h | h
    · rw [← h]
      linarith
    · have := ih hX' h
      have := (hX x (List.mem_cons_self ..)).2
      linarith

/-- an Archimedean copula with a strict convex generator has the properties of a copula -/
theorem Gen.Regular.copula {g : Gen} (hg : g.Regular) (d : ℕ) : CopulaLike d g.val where
  grounded X _ _ h0 := hg.val_zero h0
  margins i u hi h0 h1 := by
    rcases eq_or_lt_of_le h0 with rfl | h0
    · exact hg.val_zero (List.mem_iff_getElem.2 ⟨i, by simpa using hi, by simp⟩)
    · rw [hg.val_pos, sum_set_replicate g.fi hg.gen.one u d i hi, hg.gen.left_inv u h0 h1]
      intro x hx
      rcases mem_set_replicate hx with rfl | rfl
      · exact ⟨one_pos, le_rfl⟩
      · exact ⟨h0, h1⟩
  lower X hl hX := by
    by_cases h0 : 0 ∈ X
    · rw [hg.val_zero h0]
      have := sum_le_of_zero hX h0
      rw [hl] at this
      exact max_le le_rfl (by linarith)
    · have hp := pos_of_not_mem hX h0
      have hn := hg.gen.sum_nonneg hp
      rw [hg.val_pos hp]
      refine max_le (hg.gen.range _ hn).1.le ?_
      rcases le_or_gt (X.sum - (d - 1)) 0 with hw | hw
      · exact hw.trans (hg.gen.range _ hn).1.le
      · have e : X.sum - ((d : ℝ) - 1) = X.sum - X.length + 1 := by rw [hl]; ring
        rw [e] at hw ⊢
        rw [hg.gen.le_iff hw _ hn]
        · exact hg.gen.many X hp hw
        · have : X.sum ≤ X.length • (1 : ℝ) := List.sum_le_card_nsmul X 1 fun y hy => (hp y hy).2
          rw [nsmul_eq_mul, mul_one] at this
          linarith
  upper X hl hX x hx := by
    by_cases h0 : 0 ∈ X
    · rw [hg.val_zero h0]
      exact (hX x hx).1
    · have hp := pos_of_not_mem hX h0
      rw [hg.val_pos hp, hg.gen.ge_iff (hp x hx).1 (hp x hx).2 (hg.gen.sum_nonneg hp)]
      exact hg.gen.le_sum hp hx

/-- increments of a convex function -/
theorem convex_incr {ψ : ℝ → ℝ} (hc : ConvexOn ℝ (Ici 0) ψ) {x y h k : ℝ} (hx : 0 ≤ x) (hh : 0 ≤ h) (hk : 0 ≤ k)
    (hy : y = x + h + k) : ψ (x + h) + ψ (x + k) ≤ ψ x + ψ y := by
  subst hy
  rcases eq_or_lt_of_le (add_nonneg hh hk) with e | e
  · have : h = 0 := by linarith
    have : k = 0 := by linarith
    subst h k
    simp
  · have h1 := convex_le hc (x := x) (y := x + h + k) hx (show (0:ℝ) ≤ _ by linarith) (k / (h + k)) (h / (h + k))
      (div_nonneg hk e.le) (div_nonneg hh e.le) (by field_simp; ring)
    have h2 := convex_le hc (x := x) (y := x + h + k) hx (show (0:ℝ) ≤ _ by linarith) (h / (h + k)) (k / (h + k))
      (div_nonneg hh e.le) (div_nonneg hk e.le) (by field_simp)
    have e1 : k / (h + k) * x + h / (h + k) * (x + h + k) = x + h := by field_simp; ring
    have e2 : h / (h + k) * x + k / (h + k) * (x + h + k) = x + k := by field_simp; ring
    rw [e1] at h1
    rw [e2] at h2
    have e3 : ∀ z : ℝ, k / (h + k) * z + h / (h + k) * z = z := by
      intro z
      field_simp
      ring
    have := e3 (ψ x)
    have := e3 (ψ (x + h + k))
    linarith

theorem Gen.Regular.two_increasing {g : Gen} (hg : g.Regular) : TwoIncreasing g.val := by
  have hzero1 : ∀ v, g.val [0, v] = 0 := fun v => hg.val_zero (by simp)
  have hzero2 : ∀ u, g.val [u, 0] = 0 := fun u => hg.val_zero (by simp)
  have hpos : ∀ u v : ℝ, 0 < u → u ≤ 1 → 0 < v → v ≤ 1 → g.val [u, v] = g.inv (g.fi u + g.fi v) := by
    intro u v h1 h2 h3 h4
    rw [hg.val_pos (by simp [h1, h2, h3, h4])]
    simp
  have hmono : ∀ u v w : ℝ, 0 < u → u ≤ 1 → 0 < v → v ≤ w → w ≤ 1 → g.inv (g.fi u + g.fi v) ≤ g.inv (g.fi u + g.fi w) := by
    intro u v w h1 h2 h3 h4 h5
    refine hg.gen.inv_anti (add_nonneg (hg.gen.nonneg h1 h2) (hg.gen.nonneg (h3.trans_le h4) h5)) ?_
    have := hg.gen.anti.antitoneOn ⟨h3, h4.trans h5⟩ ⟨h3.trans_le h4, h5⟩ h4
    linarith
  intro a b c d ha hab hb hc hcd hd
  rcases eq_or_lt_of_le ha with rfl | ha
  · rw [hzero1, hzero1]
    rcases eq_or_lt_of_le hab with rfl | hb0
    · rw [hzero1, hzero1]
      norm_num
    · rcases eq_or_lt_of_le hc with rfl | hc
      · rw [hzero2]
        have := (hg.copula 2).lower [b, d] rfl (by intro x hx; simp at hx; rcases hx with rfl | rfl <;> constructor <;> linarith)
        have := (le_max_left _ _).trans this
        linarith
      · rw [hpos b d hb0 hb (hc.trans_le hcd) hd, hpos b c hb0 hb hc (hcd.trans hd)]
        have := hmono b c d hb0 hb hc hcd hd
        linarith
  · have hb0 := ha.trans_le hab
    rcases eq_or_lt_of_le hc with rfl | hc
    · rw [hzero2, hzero2]
      rcases eq_or_lt_of_le hcd with rfl | hd0
      · rw [hzero2, hzero2]
        norm_num
      · rw [hpos b d hb0 hb hd0 hd, hpos a d ha (hab.trans hb) hd0 hd]
        have := hmono d a b hd0 hd ha hab hb
        rw [add_comm (g.fi d), add_comm (g.fi d)] at this
        linarith
    · have hd0 := hc.trans_le hcd
      rw [hpos b d hb0 hb hd0 hd, hpos a d ha (hab.trans hb) hd0 hd, hpos b c hb0 hb hc (hcd.trans hd),
        hpos a c ha (hab.trans hb) hc (hcd.trans hd)]
      have h1 := hg.gen.anti.antitoneOn ⟨ha, hab.trans hb⟩ ⟨hb0, hb⟩ hab
      have h2 := hg.gen.anti.antitoneOn ⟨hc, hcd.trans hd⟩ ⟨hd0, hd⟩ hcd
      have := convex_incr hg.gen.inv_convex (x := g.fi b + g.fi d) (y := g.fi a + g.fi c) (h := g.fi a - g.fi b)
        (k := g.fi c - g.fi d) (add_nonneg (hg.gen.nonneg hb0 hb) (hg.gen.nonneg hd0 hd)) (by linarith) (by linarith)
        (by ring)
      rw [show g.fi b + g.fi d + (g.fi a - g.fi b) = g.fi a + g.fi d by ring,
        show g.fi b + g.fi d + (g.fi c - g.fi d) = g.fi b + g.fi c by ring] at this
      linarith

/-! ### mixed derivatives -/

/-- the mixed derivative depends only on the values near the point -/
theorem mixedDeriv_congr : ∀ (X : List ℝ) (P : List (ℝ → Prop)) (f g : List ℝ → ℝ),
    List.Forall₂ (fun p x => ∀ᶠ t in 𝓝 x, p t) P X →
    (∀ Y, List.Forall₂ (fun p y => p y) P Y → f Y = g Y) → mixedDeriv f X = mixedDeriv g X
  | [], _, f, g, h, hfg => by
    cases h
    exact hfg [] List.Forall₂.nil
  | x :: X, _, f, g, h, hfg => by
    cases h with
    | @cons p _ P _ hp hP =>
      rw [mixedDeriv, mixedDeriv]
      refine Filter.EventuallyEq.deriv_eq ?_
      filter_upwards [hp] with t ht
      exact mixedDeriv_congr X P _ _ hP fun Y hY => hfg (t :: Y) (List.Forall₂.cons ht hY)

theorem mixedDeriv_arch {ψ : ℝ → ℝ} (hψ : ∀ (k : ℕ) (s : ℝ), 0 < s → DifferentiableAt ℝ (iteratedDeriv k ψ) s) :
    ∀ (X : List ℝ) (fs : List (ℝ → ℝ)) (k : ℕ) (s : ℝ), 0 ≤ s →
    List.Forall₂ (fun f x => DifferentiableAt ℝ f x ∧ 0 < f x) fs X →
    mixedDeriv (fun Y => iteratedDeriv k ψ (s + (List.zipWith (fun f y => f y) fs Y).sum)) X =
      iteratedDeriv (k + X.length) ψ (s + (List.zipWith (fun f x => f x) fs X).sum) *
        (List.zipWith (fun f x => deriv f x) fs X).prod
  | [], _, k, s, _, h => by
    cases h
    simp [mixedDeriv]
  | x :: X, _, k, s, hs, h => by
    cases h with
    | @cons f _ fs _ hf hfs =>
      rw [mixedDeriv]
      have hpos : 0 ≤ (List.zipWith (fun f x => f x) fs X).sum := by
        refine List.sum_nonneg fun y hy => ?_
        clear * - hfs hy
        induction hfs with
        | nil => simp at hy
        | cons h1 _ ih =>
          simp only [List.zipWith_cons_cons, List.mem_cons] at hy
          rcases hy with rfl | hy
          · exact h1.2.le
          · exact ih hy
      have hev : (fun t => mixedDeriv (fun Y => iteratedDeriv k ψ
          (s + (List.zipWith (fun f y => f y) (f :: fs) (t :: Y)).sum)) X) =ᶠ[𝓝 x]
          fun t => iteratedDeriv (k + X.length) ψ (s + f t + (List.zipWith (fun f x => f x) fs X).sum) *
            (List.zipWith (fun f x => deriv f x) fs X).prod := by
        filter_upwards [hf.1.continuousAt.eventually (lt_mem_nhds hf.2)] with t ht
        rw [← mixedDeriv_arch hψ X fs k (s + f t) (by linarith) hfs]
        congr 1
        funext Y
        rw [List.zipWith_cons_cons, List.sum_cons, add_assoc]
      rw [hev.deriv_eq]
      have hd : HasDerivAt (fun t => iteratedDeriv (k + X.length) ψ
          (s + f t + (List.zipWith (fun f x => f x) fs X).sum))
          (iteratedDeriv (k + X.length + 1) ψ (s + f x + (List.zipWith (fun f x => f x) fs X).sum) * deriv f x) x := by
        have h1 : HasDerivAt (fun t => s + f t + (List.zipWith (fun f x => f x) fs X).sum) (deriv f x) x :=
          ((hf.1.hasDerivAt.const_add s).add_const _)
        have h2 := (hψ (k + X.length) (s + f x + (List.zipWith (fun f x => f x) fs X).sum) (by linarith [hf.2])).hasDerivAt
        rw [← iteratedDeriv_succ] at h2
        exact HasDerivAt.comp (h₂ := iteratedDeriv (k + X.length) ψ) x h2 h1
      rw [(hd.mul_const _).deriv, List.zipWith_cons_cons, List.zipWith_cons_cons, List.sum_cons, List.prod_cons,
        List.length_cons, add_assoc k, add_assoc s, mul_assoc]

theorem zipWith_replicate {β : Type} (F : (ℝ → ℝ) → ℝ → β) (f : ℝ → ℝ) : ∀ X : List ℝ,
    List.zipWith F (List.replicate X.length f) X = X.map (F f)
  | [] => rfl
  | x :: X => by rw [List.length_cons, List.replicate_succ, List.zipWith_cons_cons, List.map_cons, zipWith_replicate F f X]

theorem forall₂_replicate {α : Type} {R : α → ℝ → Prop} {a : α} : ∀ {X : List ℝ}, (∀ x ∈ X, R a x) →
    List.Forall₂ R (List.replicate X.length a) X
  | [], _ => List.Forall₂.nil
  | x :: X, h => by
    rw [List.length_cons, List.replicate_succ]
    exact List.Forall₂.cons (h x (List.mem_cons_self ..)) (forall₂_replicate fun y hy => h y (List.mem_cons_of_mem _ hy))

theorem forall₂_replicate_mem {α : Type} {R : α → ℝ → Prop} {a : α} : ∀ {n : ℕ} {X : List ℝ},
    List.Forall₂ R (List.replicate n a) X → X.length = n ∧ ∀ x ∈ X, R a x
  | 0, _, h => by cases h; simp
  | n + 1, _, h => by
    rw [List.replicate_succ] at h
    cases h with
    | cons h1 h2 =>
      obtain ⟨e, hm⟩ := forall₂_replicate_mem h2
      refine ⟨by rw [List.length_cons, e], fun x hx => ?_⟩
      rcases List.mem_cons.1 hx with rfl | hx
      · exact h1
      · exact hm x hx

theorem ioo_nhds {x : ℝ} (h : 0 < x ∧ x < 1) : ∀ᶠ t in 𝓝 x, 0 < t ∧ t < 1 := Ioo_mem_nhds h.1 h.2

/-- the density of an Archimedean copula with marginal distribution functions `Fs` -/
theorem Gen.Regular.mixed {g : Gen} (hg : g.Regular) {X : List ℝ} {Fs : List (ℝ → ℝ)}
    (hF : List.Forall₂ (fun F x => DifferentiableAt ℝ F x ∧ 0 < F x ∧ F x < 1) Fs X) :
    mixedDeriv (fun Y => g.val (List.zipWith (fun F y => F y) Fs Y)) X =
      iteratedDeriv X.length g.inv ((List.zipWith (fun F x => g.fi (F x)) Fs X).sum) *
        (List.zipWith (fun F x => deriv g.fi (F x) * deriv F x) Fs X).prod := by
  have h1 := mixedDeriv_arch hg.diff_inv X (Fs.map fun F => g.fi ∘ F) 0 0 le_rfl (by
    rw [List.forall₂_map_left_iff]
    refine hF.imp fun F x h => ?_
    exact ⟨(hg.diff_fi _ h.2.1 h.2.2).comp x h.1, hg.gen.pos h.2.1 h.2.2⟩)
  simp only [zero_add, iteratedDeriv_zero, List.zipWith_map_left, Function.comp_apply] at h1
  have h2 : mixedDeriv (fun Y => g.val (List.zipWith (fun F y => F y) Fs Y)) X =
      mixedDeriv (fun Y => g.inv (List.zipWith (fun F y => g.fi (F y)) Fs Y).sum) X := by
    refine mixedDeriv_congr X (Fs.map fun F y => 0 < F y ∧ F y < 1) _ _ ?_ ?_
    · rw [List.forall₂_map_left_iff]
      refine hF.imp fun F x h => ?_
      exact h.1.continuousAt.eventually (ioo_nhds h.2)
    · intro Y hY
      rw [List.forall₂_map_left_iff] at hY
      rw [hg.val_pos]
      · rw [List.map_zipWith]
      · intro z hz
        clear h1
        induction hY generalizing X with
        | nil => simp at hz
        | cons a _ ih =>
          cases hF with
          | cons b1 b2 =>
            simp only [List.zipWith_cons_cons, List.mem_cons] at hz
            rcases hz with rfl | hz
            · exact ⟨a.1, a.2.le⟩
            · exact ih b2 hz
  rw [h2, h1]
  congr 2
  clear h1 h2
  induction hF with
  | nil => rfl
  | cons a _ ih =>
    rw [List.zipWith_cons_cons, List.zipWith_cons_cons, ih]
    congr 1
    exact deriv_comp _ (hg.diff_fi _ a.2.1 a.2.2) a.1

theorem archCpdf_ok {g : Gen} {d : ℕ} {X : List ℝ} (h : X.length = d) :
    archCpdf g d X = .ok (iteratedDeriv d g.inv (X.map g.fi).sum * (X.map fun x => deriv g.fi x).prod) := by
  rw [archCpdf, if_pos h]
  simp only [foldl_sum, foldl_prod, zero_add, one_mul]

theorem Gen.Regular.density {g : Gen} (hg : g.Regular) (d : ℕ) : IsDensity d g.val fun X =>
    iteratedDeriv d g.inv (X.map g.fi).sum * (X.map fun x => deriv g.fi x).prod := by
  intro X hl hX
  have h1 := hg.mixed (X := X) (Fs := List.replicate X.length id) (forall₂_replicate fun x hx =>
    ⟨differentiableAt_id, (hX x hx).1, (hX x hx).2⟩)
  rw [zipWith_replicate, zipWith_replicate] at h1
  have h2 : mixedDeriv g.val X = mixedDeriv (fun Y => g.val (List.zipWith (fun F y => F y) (List.replicate X.length id) Y)) X := by
    refine mixedDeriv_congr X (List.replicate X.length fun _ => True) _ _ (forall₂_replicate fun x _ => by simp) ?_
    intro Y hY
    rw [← (forall₂_replicate_mem hY).1, zipWith_replicate]
    simp
  rw [h2, h1, hl]
  simp only [id, deriv_id'', mul_one]
  congr 3
  funext x
  simp [Function.id_def]

end Pacal.Copula
