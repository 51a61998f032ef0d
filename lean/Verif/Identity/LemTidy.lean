import Verif.Identity.LemExpr
import Verif.Conv.PropsSum
import Verif.Conv.PropsProd
import Verif.Conv.PropsDiv
import Verif.Conv.PropsMinMax

/-!
Lemmas for `Verif.Identity.PropsExact`: sums, products, quotients, minima and maxima of continuous distributions have no atoms and
no gaps.
-/

namespace Pacal.Identity
open MeasureTheory ProbabilityTheory Standard Set Conv

theorem cuts_linked {pole : ℝ → ℝ → Pole} {F : ℝ → ℝ → ℝ} : ∀ (brks : List (Ext ℝ)), brks.Pairwise (· < ·) →
    (∀ a b, [a, b] <:+: brks → ¬ (a = .ninf ∧ b = .pinf)) →
    (∀ s ∈ cuts pole F brks, s.isDirac = false) ∧ (cuts pole F brks).IsChain (fun s t => s.hi = t.lo) ∧
      ∀ s, (cuts pole F brks).head? = some s → brks.head? = some s.lo
  | [], _, _ => by simp [cuts]
  | [a], _, _ => by simp [cuts]
  | a :: b :: r, hs, hn => by
    obtain ⟨s, e1, e2, e3, e4, -, -⟩ := pieceOf_spec (pole := pole) (F := F) ((List.pairwise_cons.1 hs).1 b (by simp))
      (hn a b ⟨[], r, rfl⟩)
    obtain ⟨i1, i2, i3⟩ := cuts_linked (pole := pole) (F := F) (b :: r) (List.pairwise_cons.1 hs).2
      (fun u v h => hn u v (h.trans (List.infix_cons (List.infix_refl _))))
    simp only [cuts, e1, Option.toList_some, List.singleton_append]
    refine ⟨?_, ?_, ?_⟩
    · intro t ht
      rcases List.mem_cons.1 ht with rfl | ht
      · exact e4
      · exact i1 t ht
    · rw [List.isChain_cons]
      refine ⟨fun t ht => ?_, i2⟩
      have := i3 t ht
      simp only [List.head?_cons, Option.some.injEq] at this
      rw [e3, this]
    · intro t ht
      simp only [List.head?_cons, Option.some.injEq] at ht ⊢
      rw [← ht, e2]

theorem tidy_pieces {eps : ℝ} {pole : ℝ → ℝ → Pole} {F : ℝ → ℝ → ℝ} {brks : List (Ext ℝ)} {r : PF ℝ} (hs : brks.Pairwise (· < ·))
    (hn : ∀ a b, [a, b] <:+: brks → ¬ (a = .ninf ∧ b = .pinf)) (h : PF.addAll eps [] (Conv.pieces pole F brks) = some r)
    (hw : PF.WF eps r) (hr : r ≠ []) : Tidy r := by
  obtain ⟨h1, h2, -⟩ := cuts_linked (pole := pole) (F := F) brks hs hn
  have hp := pieces_perm (pole := pole) (F := F) brks
  have hp' : r.Perm (cuts pole F brks) := by
    have := addAll_perm _ [] r (fun s hs => h1 s (hp.mem_iff.1 hs)) h
    rw [List.append_nil] at this
    exact this.trans hp
  have hl : Linked (cuts pole F brks) := ⟨fun e => hr (by rw [e] at hp'; simpa using hp'), h1, h2⟩
  obtain ⟨h3, h4⟩ := hl.noHole fun s hs => hw.seg s (hp'.mem_iff.2 hs)
  exact ⟨hr, fun s hs => h1 s (hp'.mem_iff.1 hs), noHole_perm hp' h3, noHoleRight_perm hp' h4⟩

theorem convdiracs_nil {eps : ℝ} {op : ℝ → ℝ → ℝ} {f g : PF ℝ} (hf : ContPF f ∨ ContPF g) : convdiracs eps op f g = some [] := by
  have : pairsBy (fun si sj => si.isDirac && sj.isDirac) f g = [] := by
    rw [List.eq_nil_iff_forall_not_mem]
    intro pr hpr
    obtain ⟨h1, h2, h3⟩ := mem_pairsBy.1 hpr
    rcases hf with hf | hf
    · rw [hf _ h1] at h3
      simp at h3
    · rw [hf _ h2] at h3
      simp at h3
  rw [convdiracs, diracTable, this]
  rfl

theorem conv_tidy {P : Par} {f g : PF ℝ} (h : SumArgs P f g) (hf : ContPF f ∨ ContPF g) {pole : ℝ → ℝ → Pole} {r : PF ℝ}
    (hr : conv P pole f g = some r) (hw : PF.WF P.eps r) (hne : r ≠ []) : Tidy r := by
  rw [conv, Option.bind_eq_some_iff] at hr
  obtain ⟨fg, h1, h2⟩ := hr
  rw [convdiracs_nil hf, Option.bind_some] at h2
  simp only [PF.diracs, List.filter_nil, PF.addAll, Option.some.injEq] at h2
  subst h2
  exact tidy_pieces h.breaks.1 h.no_both h1 hw hne

theorem cont_iff {l : PF ℝ} : ContPF l ↔ ∀ a m, Seg.dirac a m ∉ l := ⟨fun h a m => not_dirac h a m, cont_of⟩

theorem cut3_cont {eps : ℝ} {f : PF ℝ} (hw : PF.WF eps f) (hf : ContPF f) : ContPF (cut3 f) :=
  cont_iff.2 fun a m h => cont_iff.1 hf a m ((cut3_dirac hw).1 h)

theorem cutD_cont {eps : ℝ} {f : PF ℝ} (hw : PF.WF eps f) (hf : ContPF f) : ContPF (cutD f) :=
  cont_iff.2 fun a m h => cont_iff.1 hf a m ((cutD_dirac hw).1 h)

theorem cutAt_cont {eps : ℝ} {f g : PF ℝ} (hw : PF.WF eps f) (hf : ContPF f) : ContPF (cutAt f g) :=
  cont_iff.2 fun a m h => cont_iff.1 hf a m ((cutAt_dirac hw).1 h)

theorem zeroTimes_zero {P : Par} {f g : PF ℝ} (hf : ContPF f) : zeroTimes P f g = 0 := by
  unfold zeroTimes
  apply List.sum_eq_zero
  intro x hx
  obtain ⟨s, hs, rfl⟩ := List.mem_map.1 hx
  have := hf s hs
  cases s <;> first | rfl | simp [Seg.isDirac] at this

theorem prod_tidy {P : Par} {f g : PF ℝ} (h : ProdArgs P f g) (hf : ContPF f) (hg : ContPF g) {pole : ℝ → ℝ → Pole} {r : PF ℝ}
    (hr : convprod P pole f g = some r) (hw : PF.WF P.eps r) (hne : r ≠ []) : Tidy r := by
  rw [convprod, cut3_eq h.eps h.fwf, Option.bind_some, cut3_eq h.eps h.gwf, Option.bind_some] at hr
  split_ifs at hr
  rw [Option.bind_eq_some_iff] at hr
  obtain ⟨fg, h1, h2⟩ := hr
  rw [convdiracs_nil (.inl (cut3_cont h.fwf hf)), Option.bind_some] at h2
  simp only [PF.diracs, List.filter_nil, PF.addAll, Option.bind_some] at h2
  rw [Option.bind_eq_some_iff] at h2
  obtain ⟨s0, -, h2⟩ := h2
  have : zeroAtom P (cut3 f) (cut3 g) = none := by
    unfold zeroAtom
    rw [zeroTimes_zero (cut3_cont h.fwf hf), zeroTimes_zero (cut3_cont h.gwf hg)]
    simp
  rw [this, addZero, Option.some.injEq] at h2
  subst h2
  exact tidy_pieces h.breaks.1 h.no_both h1 hw hne

theorem div_tidy {P : Par} {f g : PF ℝ} (h : DivBase P f g) (hf : ContPF f ∨ ContPF g) {neg0 arr : Bool} {pole : ℝ → ℝ → Pole} {r : PF ℝ}
    (hr : convdiv P neg0 arr pole f g = some r) (hw : PF.WF P.eps r) (hne : r ≠ []) : Tidy r := by
  rw [convdiv, cutD_eq h.eps h.fne h.fwf, Option.bind_some, cutD_eq h.eps h.gne h.gwf, Option.bind_some] at hr
  split_ifs at hr
  rw [Option.bind_eq_some_iff] at hr
  obtain ⟨fg, h1, h2⟩ := hr
  rw [h.diracs, convdiracs_nil (hf.imp (cutD_cont h.fwf) (cutD_cont h.gwf)), Option.bind_some] at h2
  simp only [PF.diracs, List.filter_nil, PF.addAll, Option.some.injEq] at h2
  subst h2
  exact tidy_pieces (dBreaks_sorted P neg0 f g) (h.no_both neg0) h1 hw hne

theorem probDiracs_nil {eps : ℝ} {tail : PF ℝ → ℝ → ℝ} {f g : PF ℝ} (hf : ContPF f) (hg : ContPF g) :
    probDiracs eps tail f g = some [] := by
  have key : ∀ {l : PF ℝ} (u : Seg ℝ → Option (Seg ℝ)), ContPF l → (∀ s, s.isDirac = false → u s = none) → l.filterMap u = [] := by
    intro l u hl hu
    rw [List.filterMap_eq_nil_iff]
    exact fun s hs => hu s (hl s hs)
  unfold probDiracs
  rw [key _ hf, key _ hg, key _ hg]
  · rfl
  all_goals
    intro s hs
    cases s <;> first | rfl | simp [Seg.isDirac] at hs

theorem mm_tidy {P : Par} {opR : ℝ → ℝ → ℝ} {T : ℝ → Set ℝ} {opE : Ext ℝ → Ext ℝ → Ext ℝ} {R : Ext ℝ → Ext ℝ → Prop}
    {op : EReal → EReal → EReal} {pair : ℝ → Seg ℝ → Seg ℝ → Except PyErr ℝ} {tail : PF ℝ → ℝ → ℝ} {f g : PF ℝ}
    (h : MMOp P opR T opE R op pair tail) (ha : MMArgs P f g) (hf : ContPF f) (hg : ContPF g) {r : PF ℝ}
    (hr : convMM P opE op pair tail f g = some r) (hw : PF.WF P.eps r) (hne : r ≠ []) : Tidy r := by
  have hs : (mmBreaks opE f g).Pairwise (· < ·) := npUnique_sorted _
  obtain ⟨p, hp⟩ := exists_fin_break ha.fne
  obtain ⟨q, hq⟩ := exists_fin_break ha.gne
  obtain ⟨c, hc⟩ := h.fin p q
  have hcm : Ext.fin c ∈ mmBreaks opE f g := mem_mmBreaks.2 ⟨_, hp, _, hq, hc.symm⟩
  have hn : ∀ a b, [a, b] <:+: mmBreaks opE f g → ¬ (a = .ninf ∧ b = .pinf) := by
    rintro a b hab ⟨rfl, rfl⟩
    rcases infix_between hs hab hcm with h1 | h1
    · exact not_le_ninf _ h1
    · exact not_pinf_le _ h1
  rw [convMM] at hr
  dsimp only at hr
  rw [splitByPoints_eq ha.eps (finites_sorted (getBreaks_sorted g)) ha.fwf, Option.bind_some,
    splitByPoints_eq ha.eps (finites_sorted (getBreaks_sorted f)) ha.gwf, Option.bind_some] at hr
  split_ifs at hr
  rw [Option.bind_eq_some_iff] at hr
  obtain ⟨fg, h1, h2⟩ := hr
  have e1 : ContPF (f.flatMap (PF.splitSeg (PF.finites (PF.getBreaks g)))) := cutAt_cont (g := g) ha.fwf hf
  have e2 : ContPF (g.flatMap (PF.splitSeg (PF.finites (PF.getBreaks f)))) := cutAt_cont (g := f) ha.gwf hg
  rw [probDiracs_nil e1 e2, Option.bind_some, addDiracs, Option.some.injEq] at h2
  subst h2
  exact tidy_pieces hs hn h1 hw hne

/-- the image of an end -/
noncomputable def affExt (a b : ℝ) : Ext ℝ → Ext ℝ
  | none => if 0 < b then .ninf else .pinf
  | some none => if 0 < b then .pinf else .ninf
  | some (some x) => .fin (x * b + a)

theorem shift_ends_pos {a b : ℝ} (hb : 0 < b) (s : Seg ℝ) : (s.shiftAndScale a b).lo = affExt a b s.lo ∧ (s.shiftAndScale a b).hi = affExt a b s.hi := by
  rcases s with ⟨_ | _ | _, c, d, f⟩ | _ | _ | _ | _ <;> simp only [Seg.shiftAndScale, gt_iff_lt, if_pos hb, Seg.lo, Seg.hi] <;>
    constructor <;> first | rfl | exact (if_pos hb).symm

theorem shift_ends_neg {a b : ℝ} (hb : b < 0) (s : Seg ℝ) : (s.shiftAndScale a b).lo = affExt a b s.hi ∧ (s.shiftAndScale a b).hi = affExt a b s.lo := by
  have hb := not_lt.2 hb.le
  rcases s with ⟨_ | _ | _, c, d, f⟩ | _ | _ | _ | _ <;> simp only [Seg.shiftAndScale, gt_iff_lt, if_neg hb, Seg.lo, Seg.hi] <;>
    constructor <;> first | rfl | exact (if_neg hb).symm

theorem affExt_mono {a b : ℝ} (hb : 0 < b) {x y : Ext ℝ} (h : x ≤ y) : affExt a b x ≤ affExt a b y := by
  rcases x with _ | _ | x <;> rcases y with _ | _ | y <;> simp only [affExt, if_pos hb]
  · exact le_rfl
  · exact ninf_le_ext _
  · exact ninf_le_ext _
  · exact absurd h (not_pinf_le_ninf)
  · exact le_rfl
  · exact absurd h (not_pinf_le _)
  · exact absurd h (not_le_ninf _)
  · exact ext_le_pinf _
  · have := extFin_le.1 h
    exact extFin_le.2 (by nlinarith)

theorem affExt_anti {a b : ℝ} (hb : b < 0) {x y : Ext ℝ} (h : x ≤ y) : affExt a b y ≤ affExt a b x := by
  have hb' := not_lt.2 hb.le
  rcases x with _ | _ | x <;> rcases y with _ | _ | y <;> simp only [affExt, if_neg hb']
  · exact le_rfl
  · exact ninf_le_ext _
  · exact ext_le_pinf _
  · exact absurd h (not_pinf_le_ninf)
  · exact le_rfl
  · exact absurd h (not_pinf_le _)
  · exact absurd h (not_le_ninf _)
  · exact ninf_le_ext _
  · have := extFin_le.1 h
    exact extFin_le.2 (by nlinarith)

theorem shift_tidy {eps a b : ℝ} (hb : b ≠ 0) {l r : PF ℝ} (h : Tidy l) (hr : shiftedScaled eps l a b = some r) : Tidy r := by
  rw [shiftedScaled, if_pos hb, PF.copyShiftedAndScaled] at hr
  have hc : ContPF (l.map (Seg.shiftAndScale a b)) := by
    intro s hs
    obtain ⟨t, ht, rfl⟩ := List.mem_map.1 hs
    rw [shift_isDirac]; exact h.cont t ht
  have hp : r.Perm (l.map (Seg.shiftAndScale a b)) := by simpa using addAll_perm _ [] r hc hr
  have key : PF.NoHole (l.map (Seg.shiftAndScale a b)) ∧ PF.NoHoleRight (l.map (Seg.shiftAndScale a b)) := by
    rcases lt_or_gt_of_ne hb with hb | hb
    · constructor
      · intro s hs
        obtain ⟨t, ht, rfl⟩ := List.mem_map.1 hs
        rw [(shift_ends_neg hb t).1]
        rcases h.holeRight t ht with h1 | ⟨u, hu, e⟩
        · refine .inl fun u hu => ?_
          obtain ⟨v, hv, rfl⟩ := List.mem_map.1 hu
          rw [(shift_ends_neg hb v).1]
          exact affExt_anti hb (h1 v hv)
        · exact .inr ⟨_, List.mem_map_of_mem hu, by rw [(shift_ends_neg hb u).2, e]⟩
      · intro s hs
        obtain ⟨t, ht, rfl⟩ := List.mem_map.1 hs
        rw [(shift_ends_neg hb t).2]
        rcases h.hole t ht with h1 | ⟨u, hu, e⟩
        · refine .inl fun u hu => ?_
          obtain ⟨v, hv, rfl⟩ := List.mem_map.1 hu
          rw [(shift_ends_neg hb v).2]
          exact affExt_anti hb (h1 v hv)
        · exact .inr ⟨_, List.mem_map_of_mem hu, by rw [(shift_ends_neg hb u).1, e]⟩
    · constructor
      · intro s hs
        obtain ⟨t, ht, rfl⟩ := List.mem_map.1 hs
        rw [(shift_ends_pos hb t).1]
        rcases h.hole t ht with h1 | ⟨u, hu, e⟩
        · refine .inl fun u hu => ?_
          obtain ⟨v, hv, rfl⟩ := List.mem_map.1 hu
          rw [(shift_ends_pos hb v).1]
          exact affExt_mono hb (h1 v hv)
        · exact .inr ⟨_, List.mem_map_of_mem hu, by rw [(shift_ends_pos hb u).2, e]⟩
      · intro s hs
        obtain ⟨t, ht, rfl⟩ := List.mem_map.1 hs
        rw [(shift_ends_pos hb t).2]
        rcases h.holeRight t ht with h1 | ⟨u, hu, e⟩
        · refine .inl fun u hu => ?_
          obtain ⟨v, hv, rfl⟩ := List.mem_map.1 hu
          rw [(shift_ends_pos hb v).2]
          exact affExt_mono hb (h1 v hv)
        · exact .inr ⟨_, List.mem_map_of_mem hu, by rw [(shift_ends_pos hb u).1, e]⟩
  refine ⟨?_, fun s hs => hc s (hp.mem_iff.1 hs), noHole_perm hp key.1, noHoleRight_perm hp key.2⟩
  rintro rfl
  have := hp.length_eq
  simp only [List.length_nil, List.length_map] at this
  exact h.ne (List.eq_nil_of_length_eq_zero this.symm)

theorem sub_tidy {P : Par} {f g : PF ℝ} (h1 : 0 ≤ P.eps) (h2 : 0 ≤ P.brkEps) (hc : ContPF f ∨ ContPF g) (fne : f ≠ []) (gne : g ≠ [])
    (hf : f.NoHole) (hg : g.NoHoleRight) (hwf : PF.WF P.eps f)
    (hwg : PF.WF P.eps g) (hap : Apart (· - ·) (max P.brkEps P.eps) f g) {pole : ℝ → ℝ → Pole} {r : PF ℝ}
    (hr : Conv.sub P pole f g = some r) (hw : PF.WF P.eps r) (hne : r ≠ []) : Tidy r := by
  obtain ⟨g', e1, e2, e3⟩ := reflect_perm h1 hwg
  rw [Conv.sub, e1, Option.bind_some] at hr
  have harg : SumArgs P f g' := ⟨h1, h2, fne, by rintro rfl; exact gne (by simpa using e2), hwf, e3, hf,
    reflect_noHole e2 hg, by
    intro a ha b hb a' ha' b' hb' hne
    have := hap a ha _ (reflect_ends e2 hb) a' ha' _ (reflect_ends e2 hb') (by simpa using hne)
    simpa using this⟩
  refine conv_tidy harg (hc.imp_right fun h s hs => ?_) hr hw hne
  obtain ⟨t, ht, rfl⟩ := List.mem_map.1 (e2.mem_iff.1 hs)
  rw [shift_isDirac]; exact h t ht

theorem shift_pos {eps a b : ℝ} (ha : 0 ≤ a) (hb : 0 < b) {l r : PF ℝ} (hc : ContPF l) (hp : PosPF l)
    (hr : shiftedScaled eps l a b = some r) : PosPF r := by
  rw [shiftedScaled, if_pos hb.ne', PF.copyShiftedAndScaled] at hr
  have hc' : ContPF (l.map (Seg.shiftAndScale a b)) := by
    intro s hs
    obtain ⟨t, ht, rfl⟩ := List.mem_map.1 hs
    rw [shift_isDirac]; exact hc t ht
  have hperm : r.Perm (l.map (Seg.shiftAndScale a b)) := by simpa using addAll_perm _ [] r hc' hr
  intro s hs
  obtain ⟨t, ht, rfl⟩ := List.mem_map.1 (hperm.mem_iff.1 hs)
  rw [(shift_ends_pos hb t).1]
  refine le_trans ?_ (affExt_mono hb (hp t ht))
  exact extFin_le.2 (by linarith [zero_mul b])

end Pacal.Identity
