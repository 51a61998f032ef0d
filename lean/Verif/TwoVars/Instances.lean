import Verif.TwoVars.Sym
import Verif.TwoVars.Law

/-! The linear operation and the product satisfy the assumptions on sympy. -/

namespace Pacal
namespace TwoVars
open MeasureTheory Set Transform Conv

theorem aff_coe (m c t : ℝ) : aff m c (t : EReal) = ((m * t + c : ℝ) : EReal) := by
  simp [aff]

theorem aff_bot_pos {m : ℝ} (c : ℝ) (h : 0 < m) : aff m c ⊥ = ⊥ := by simp [aff, h]
theorem aff_top_pos {m : ℝ} (c : ℝ) (h : 0 < m) : aff m c ⊤ = ⊤ := by simp [aff, h]
theorem aff_bot_neg {m : ℝ} (c : ℝ) (h : m < 0) : aff m c ⊥ = ⊤ := by simp [aff, h.not_gt]
theorem aff_top_neg {m : ℝ} (c : ℝ) (h : m < 0) : aff m c ⊤ = ⊥ := by simp [aff, h.not_gt]

theorem aff_mono {m : ℝ} (c : ℝ) (h : 0 < m) : StrictMono (aff m c) := by
  intro a b hab
  induction a using EReal.rec <;> induction b using EReal.rec <;>
    simp only [aff_coe, aff_bot_pos c h, aff_top_pos c h, EReal.bot_lt_coe, EReal.coe_lt_top, EReal.coe_lt_coe_iff,
      not_lt_bot, not_top_lt, lt_self_iff_false, bot_lt_top] at hab ⊢
  nlinarith

theorem aff_anti {m : ℝ} (c : ℝ) (h : m < 0) : StrictAnti (aff m c) := by
  intro a b hab
  induction a using EReal.rec <;> induction b using EReal.rec <;>
    simp only [aff_coe, aff_bot_neg c h, aff_top_neg c h, EReal.bot_lt_coe, EReal.coe_lt_top, EReal.coe_lt_coe_iff,
      not_lt_bot, not_top_lt, lt_self_iff_false, bot_lt_top] at hab ⊢
  nlinarith

theorem aff_inv {α β : ℝ} (ha : α ≠ 0) (hb : β ≠ 0) (z : ℝ) (e : EReal) :
    aff (-(α / β)) (z / β) (aff (-(β / α)) (z / α) e) = e := by
  have hs : 0 < α / β ↔ 0 < β / α := by rw [← inv_div]; exact inv_pos
  rcases lt_or_gt_of_ne (div_ne_zero ha hb) with h | h
  · have h1 : 0 < -(α / β) := by linarith
    have h2 : 0 < -(β / α) := by
      have : ¬ 0 < β / α := fun hc => absurd (hs.2 hc) (by linarith)
      have : β / α ≠ 0 := div_ne_zero hb ha
      rcases lt_or_gt_of_ne this with h | h
      · linarith
      · contradiction
    induction e using EReal.rec with
    | bot => rw [aff_bot_pos _ h2, aff_bot_pos _ h1]
    | top => rw [aff_top_pos _ h2, aff_top_pos _ h1]
    | coe t => rw [aff_coe, aff_coe]; congr 1; field_simp; ring
  · have h1 : -(α / β) < 0 := by linarith
    have h2 : -(β / α) < 0 := by linarith [hs.1 h]
    induction e using EReal.rec with
    | bot => rw [aff_bot_neg _ h2, aff_top_neg _ h1]
    | top => rw [aff_top_neg _ h2, aff_bot_neg _ h1]
    | coe t => rw [aff_coe, aff_coe]; congr 1; field_simp; ring

theorem aff_strict {m : ℝ} (c : ℝ) (h : m ≠ 0) (T : Set EReal) : StrictMonoOn (aff m c) T ∨ StrictAntiOn (aff m c) T := by
  rcases lt_or_gt_of_ne h with h | h
  · exact .inr ((aff_anti c h).strictAntiOn _)
  · exact .inl ((aff_mono c h).strictMonoOn _)

theorem linear_cuts {α β : ℝ} (ha : α ≠ 0) (hb : β ≠ 0) (a b c d : EReal) (z : ℝ) : Cuts (linear α β) a b c d z := by
  refine ⟨aff (-(α / β)) (z / β), univ, aff (-(β / α)) (z / α) c, aff (-(β / α)) (z / α) d,
    aff_strict _ (neg_ne_zero.2 (div_ne_zero ha hb)) _, ⟨trivial, trivial, trivial, trivial, fun x _ _ => ⟨trivial, ?_⟩⟩,
    ⟨rfl, aff_inv ha hb z c⟩, ⟨rfl, aff_inv ha hb z d⟩, rfl, rfl⟩
  rw [aff_coe]
  show _ = (((z - α * x) / β : ℝ) : EReal)
  congr 1
  field_simp
  ring

theorem linear_solves {α β : ℝ} (hb : β ≠ 0) (X Y : Set ℝ) : Solves (linear α β) (fun x y => α * x + β * y) X Y := by
  refine ⟨fun x _ y _ => ?_, fun x _ z _ => ?_, fun x _ z _ => ?_⟩
  · show (α * x + β * y - α * x) / β = y
    field_simp
    ring
  · show α * x + β * ((z - α * x) / β) = z
    field_simp
    ring
  · exact ((hasDerivAt_id z).sub_const (α * x)).div_const β

/-- the end of a piece at which `m t` is smallest, and the one at which it is largest -/
theorem aff_ends {m : ℝ} (h : m ≠ 0) {s : Seg ℝ} (hs : s.isDirac = false) (hw : s.WF) {x : ℝ} (hx : x ∈ s.points) :
    ∃ e e', (e = Conv.lo s ∧ e' = Conv.hi s ∨ e = Conv.hi s ∧ e' = Conv.lo s) ∧ aff m 0 e ≤ ((m * x : ℝ) : EReal) ∧
      ((m * x : ℝ) : EReal) ≤ aff m 0 e' ∧ aff m 0 e ≠ ⊤ ∧ aff m 0 e' ≠ ⊥ := by
  rw [points_not hs] at hx
  have hx1 : Conv.lo s < x := hx.1
  have hx2 : (x : EReal) < Conv.hi s := hx.2
  have e0 : ((m * x : ℝ) : EReal) = aff m 0 x := by rw [aff_coe, add_zero]
  rw [e0]
  rcases lt_or_gt_of_ne h with h | h
  · have := aff_anti 0 h
    refine ⟨Conv.hi s, Conv.lo s, .inr ⟨rfl, rfl⟩, (this hx2).le, (this hx1).le, ?_, ?_⟩
    · rw [← aff_bot_neg 0 h]; exact ((this (lt_of_le_of_lt bot_le hx2))).ne
    · rw [← aff_top_neg 0 h]; exact (this (lt_of_lt_of_le hx1 le_top)).ne'
  · have := aff_mono 0 h
    refine ⟨Conv.lo s, Conv.hi s, .inl ⟨rfl, rfl⟩, (this hx1).le, (this hx2).le, ?_, ?_⟩
    · rw [← aff_top_pos 0 h]; exact ((this (lt_of_lt_of_le hx1 le_top))).ne
    · rw [← aff_bot_pos 0 h]; exact (this (lt_of_le_of_lt bot_le hx2)).ne'

theorem mem_corners {S : Sym} {si sj : Seg ℝ} {r : EReal} : r ∈ corners S si sj ↔
    ∃ x y, (x = Conv.lo si ∨ x = Conv.hi si) ∧ (y = Conv.lo sj ∨ y = Conv.hi sj) ∧ S.lop x y = some r := by
  simp only [corners, List.mem_filterMap, List.mem_cons, List.not_mem_nil, or_false, id_eq, exists_eq_right]
  constructor
  · rintro (h | h | h | h)
    · exact ⟨_, _, .inl rfl, .inl rfl, h.symm⟩
    · exact ⟨_, _, .inr rfl, .inr rfl, h.symm⟩
    · exact ⟨_, _, .inl rfl, .inr rfl, h.symm⟩
    · exact ⟨_, _, .inr rfl, .inl rfl, h.symm⟩
  · rintro ⟨x, y, rfl | rfl, rfl | rfl, h⟩ <;> simp [h]

theorem linear_extreme {α β : ℝ} (ha : α ≠ 0) (hb : β ≠ 0) {si sj : Seg ℝ} (hi : si.isDirac = false) (hj : sj.isDirac = false)
    (hwi : si.WF) (hwj : sj.WF) : Extreme (linear α β) (fun x y => α * x + β * y) si sj := by
  intro x hx y hy
  obtain ⟨e, e', h1, h2, h3, h4, h5⟩ := aff_ends ha hi hwi hx
  obtain ⟨k, k', g1, g2, g3, g4, g5⟩ := aff_ends hb hj hwj hy
  refine ⟨⟨aff α 0 e + aff β 0 k, mem_corners.2 ⟨e, k, ?_, ?_, ?_⟩, ?_⟩, aff α 0 e' + aff β 0 k',
    mem_corners.2 ⟨e', k', ?_, ?_, ?_⟩, ?_⟩
  · tauto
  · tauto
  · show (if _ then none else _) = _
    rw [if_neg]; tauto
  · rw [EReal.coe_add]; exact add_le_add h2 g2
  · tauto
  · tauto
  · show (if _ then none else _) = _
    rw [if_neg]; tauto
  · rw [EReal.coe_add]; exact add_le_add h3 g3

theorem linear_regular {α β : ℝ} (ha : α ≠ 0) (hb : β ≠ 0) {eps : ℝ} {f g : PF ℝ} (hf : PF.WF eps f)
    (hfc : ∀ s ∈ f, s.isDirac = false) (hg : PF.WF eps g) (hgc : ∀ s ∈ g, s.isDirac = false) :
    Regular (linear α β) (fun x y => α * x + β * y) f g where
  fin x _ y _ := by
    unfold linear
    simp only
    rw [if_neg]
    · rw [aff_coe, aff_coe, ← EReal.coe_add]; simp
    · rw [aff_coe, aff_coe]
      exact fun h => h.elim (fun h => EReal.coe_ne_top _ h.1) (fun h => EReal.coe_ne_bot _ h.1)
  solves si _ sj _ := linear_solves hb _ _
  cuts si _ sj _ z _ := linear_cuts ha hb _ _ _ _ z
  extreme si hsi sj hsj := linear_extreme ha hb (hfc si hsi) (hgc sj hsj) (hf.seg si hsi) (hg.seg sj hsj)
  meas := (measurable_fst.const_mul α).add (measurable_snd.const_mul β)
  measA := (measurable_snd.sub (measurable_fst.const_mul α)).div_const β
  measJ := measurable_const

/-! ### the product on positive pieces -/

/-- the curve `x y = z` with its values at the ends of the half line -/
noncomputable def hyp (z : ℝ) (e : EReal) : EReal := open Classical in if e = 0 then ⊤ else z / e

theorem hyp_anti {z : ℝ} (hz : 0 < z) : StrictAntiOn (hyp z) (Ici 0) := by
  intro a ha b hb hab
  have hb0 : b ≠ 0 := fun h => by rw [h] at hab; exact absurd ha (not_le.2 hab)
  have hbp : 0 < b := lt_of_le_of_ne hb hb0.symm
  unfold hyp
  rw [if_neg hb0]
  split_ifs with h0
  · induction b using EReal.rec with
    | bot => simp at hbp
    | top => rw [EReal.div_top]; exact EReal.zero_lt_top
    | coe t => rw [← EReal.coe_div]; exact EReal.coe_lt_top _
  · have hap : 0 < a := lt_of_le_of_ne ha (Ne.symm h0)
    induction a using EReal.rec with
    | bot => simp at hap
    | top => simp at hab
    | coe s =>
      have hs : 0 < s := by exact_mod_cast hap
      induction b using EReal.rec with
      | bot => simp at hbp
      | top => rw [EReal.div_top, ← EReal.coe_div]; exact_mod_cast div_pos hz hs
      | coe t =>
        have ht : 0 < t := by exact_mod_cast hbp
        rw [← EReal.coe_div, ← EReal.coe_div]
        have : s < t := by exact_mod_cast hab
        exact_mod_cast div_lt_div_of_pos_left hz hs this

theorem hyp_hyp {z : ℝ} (hz : 0 < z) {e : EReal} (he : 0 < e) : hyp z (z / e) = e ∧ 0 ≤ (z : EReal) / e := by
  induction e using EReal.rec with
  | bot => simp at he
  | top => rw [EReal.div_top]; simp [hyp]
  | coe t =>
    have ht : 0 < t := by exact_mod_cast he
    rw [← EReal.coe_div]
    have h1 : 0 < z / t := div_pos hz ht
    refine ⟨?_, by exact_mod_cast h1.le⟩
    rw [hyp, if_neg (by exact_mod_cast h1.ne'), ← EReal.coe_div]
    congr 1
    field_simp

theorem product_cuts {a b c d : EReal} (ha : 0 < a) (hb : a < b) (hc : 0 < c) (hd : c < d) {z : ℝ} (hz : 0 < z) :
    Cuts product a b c d z := by
  have hb0 : 0 < b := ha.trans hb
  have hd0 : 0 < d := hc.trans hd
  refine ⟨hyp z, Ici 0, z / c, z / d, .inr (hyp_anti hz), ⟨ha.le, hb0.le, (hyp_hyp hz hc).2, (hyp_hyp hz hd0).2, ?_⟩,
    ⟨?_, (hyp_hyp hz hc).1⟩, ⟨?_, (hyp_hyp hz hd0).1⟩, ?_, ?_⟩
  · intro x hx _
    have h0 : (0 : EReal) < x := ha.trans hx
    refine ⟨h0.le, ?_⟩
    rw [hyp, if_neg h0.ne']
    exact (EReal.coe_div _ _).symm
  · exact if_neg hc.ne'
  · exact if_neg hd0.ne'
  · show (if _ then _ else _) = _
    rw [if_neg ha.ne', hyp, if_neg ha.ne']
  · show (if _ then _ else _) = _
    rw [if_neg hb0.ne', hyp, if_neg hb0.ne']

/-- all pieces are right of 0 and do not touch it -/
def Positive (f : PF ℝ) : Prop := ∀ s ∈ f, Ext.fin 0 < s.lo

theorem mul_corner {a b : EReal} (ha : 0 < a) (hb : 0 < b) : product.lop a b = some (a * b) := by
  show (if _ then none else _) = _
  rw [if_neg]
  rintro (⟨h, -⟩ | ⟨h, -⟩)
  · exact ha.ne' h
  · exact hb.ne' h

theorem product_regular {eps : ℝ} {f g : PF ℝ} (hf : PF.WF eps f) (hfc : ∀ s ∈ f, s.isDirac = false) (hfp : Positive f)
    (hg : PF.WF eps g) (hgc : ∀ s ∈ g, s.isDirac = false) (hgp : Positive g) :
    Regular product (fun x y => x * y) f g := by
  have hlo : ∀ {l : PF ℝ}, Positive l → ∀ s ∈ l, (0 : EReal) < Conv.lo s := fun h s hs => h s hs
  have hhi : ∀ {l : PF ℝ}, PF.WF eps l → (∀ s ∈ l, s.isDirac = false) → Positive l → ∀ s ∈ l, (0 : EReal) < Conv.hi s :=
    fun hw hc h s hs => (hlo h s hs).trans (lo_lt_hi (hc s hs) (hw.seg s hs))
  have hpt : ∀ {l : PF ℝ}, (∀ s ∈ l, s.isDirac = false) → Positive l → ∀ s ∈ l, ∀ x ∈ s.points,
      0 < x ∧ Conv.lo s ≤ x ∧ (x : EReal) ≤ Conv.hi s := by
    intro l hc h s hs x hx
    rw [points_not (hc s hs)] at hx
    have h1 : Conv.lo s < x := hx.1
    have h2 : (x : EReal) < Conv.hi s := hx.2
    exact ⟨by exact_mod_cast (hlo h s hs).trans h1, h1.le, h2.le⟩
  have hcor : ∀ si ∈ f, ∀ sj ∈ g, ∀ x y, (x = Conv.lo si ∨ x = Conv.hi si) → (y = Conv.lo sj ∨ y = Conv.hi sj) →
      0 < x ∧ 0 < y := by
    rintro si hsi sj hsj x y (rfl | rfl) (rfl | rfl)
    · exact ⟨hlo hfp _ hsi, hlo hgp _ hsj⟩
    · exact ⟨hlo hfp _ hsi, hhi hg hgc hgp _ hsj⟩
    · exact ⟨hhi hf hfc hfp _ hsi, hlo hgp _ hsj⟩
    · exact ⟨hhi hf hfc hfp _ hsi, hhi hg hgc hgp _ hsj⟩
  refine ⟨?_, ?_, ?_, ?_, measurable_fst.mul measurable_snd, measurable_snd.div measurable_fst, measurable_const.div measurable_fst⟩
  · rintro x ⟨si, hsi, hx⟩ y ⟨sj, hsj, hy⟩
    obtain ⟨h1, h2⟩ := hcor si hsi sj hsj (x : EReal) (y : EReal) (hx.imp Eq.symm Eq.symm) (hy.imp Eq.symm Eq.symm)
    rw [mul_corner h1 h2]
    exact congrArg some (EReal.coe_mul x y).symm
  · intro si hsi sj hsj
    refine ⟨fun x hx y _ => ?_, fun x hx z _ => ?_, fun x hx z _ => ?_⟩
    · exact mul_div_cancel_left₀ y (hpt hfc hfp si hsi x hx).1.ne'
    · exact mul_div_cancel₀ z (hpt hfc hfp si hsi x hx).1.ne'
    · exact (hasDerivAt_id z).div_const x
  · intro si hsi sj hsj z hz
    obtain ⟨⟨r, hr, hlt⟩, -⟩ := hz
    obtain ⟨x, y, hx, hy, e⟩ := mem_corners.1 hr
    obtain ⟨h1, h2⟩ := hcor si hsi sj hsj x y hx hy
    rw [mul_corner h1 h2, Option.some.injEq] at e
    have : (0 : EReal) < z := (by rw [← e]; exact EReal.mul_pos h1 h2 : 0 < r).trans hlt
    exact product_cuts (hlo hfp _ hsi) (lo_lt_hi (hfc _ hsi) (hf.seg _ hsi)) (hlo hgp _ hsj)
      (lo_lt_hi (hgc _ hsj) (hg.seg _ hsj)) (by exact_mod_cast this)
  · intro si hsi sj hsj x hx y hy
    obtain ⟨h0, h1, h2⟩ := hpt hfc hfp si hsi x hx
    obtain ⟨g0, g1, g2⟩ := hpt hgc hgp sj hsj y hy
    refine ⟨⟨Conv.lo si * Conv.lo sj, mem_corners.2 ⟨_, _, .inl rfl, .inl rfl, mul_corner (hlo hfp _ hsi) (hlo hgp _ hsj)⟩, ?_⟩,
      Conv.hi si * Conv.hi sj, mem_corners.2 ⟨_, _, .inr rfl, .inr rfl, mul_corner (hhi hf hfc hfp _ hsi) (hhi hg hgc hgp _ hsj)⟩, ?_⟩
    · rw [EReal.coe_mul]
      exact mul_le_mul h1 g1 (hlo hgp _ hsj).le (by exact_mod_cast h0.le)
    · rw [EReal.coe_mul]
      exact mul_le_mul h2 g2 (by exact_mod_cast g0.le) (hhi hf hfc hfp _ hsi).le

end TwoVars
end Pacal
