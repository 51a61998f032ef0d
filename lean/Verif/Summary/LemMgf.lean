import Verif.Summary.SpecMgf
import Verif.Standard.PropsFun
import Verif.Moments.Props
import Verif.Conv.MinMaxLemmas
import Verif.Quantile.Example
import Verif.Cond.Example
import Mathlib.Probability.Moments.Basic

/-! Lemmas for C93. -/

namespace Pacal.Summary
open MeasureTheory Transform Moments Standard

theorem chain_split {f : ℝ → ℝ} {lo hi : Ext ℝ} {l : PF ℝ} (h : Chain f lo hi l) (x : ℝ) :
    (∃ l₁ s l₂, l = l₁ ++ s :: l₂ ∧ (∀ y ∈ l₁, y.hi ≤ .fin x) ∧ (∀ y ∈ s :: l₂, ¬ y.hi ≤ .fin x) ∧
      (s.lo ≤ .fin x ∨ l₁ = [] ∧ s.lo = lo)) ∨ ((∀ y ∈ l, y.hi ≤ .fin x) ∧ ∃ l₁ s, l = l₁ ++ [s] ∧ s.hi = hi) := by
  induction h with
  | one s hd hs hf =>
    by_cases h : s.hi ≤ .fin x
    · exact .inr ⟨by simpa using h, [], s, rfl, rfl⟩
    · exact .inl ⟨[], s, [], rfl, by simp, by simpa using h, .inr ⟨rfl, rfl⟩⟩
  | cons s hd hs hf hl ih =>
    by_cases h : s.hi ≤ .fin x
    · rcases ih with ⟨l₁, t, l₂, rfl, h1, h2, h3⟩ | ⟨h1, l₁, t, rfl, h2⟩
      · refine .inl ⟨s :: l₁, t, l₂, rfl, ?_, h2, .inl ?_⟩
        · intro y hy
          rcases List.mem_cons.1 hy with rfl | hy
          · exact h
          · exact h1 y hy
        · rcases h3 with h3 | ⟨-, h3⟩
          · exact h3
          · rw [h3]; exact h
      · refine .inr ⟨?_, s :: l₁, t, rfl, h2⟩
        intro y hy
        rcases List.mem_cons.1 hy with rfl | hy
        · exact h
        · exact h1 y hy
    · refine .inl ⟨[], s, _, rfl, by simp, ?_, .inr ⟨rfl, rfl⟩⟩
      intro y hy
      rcases List.mem_cons.1 hy with rfl | hy
      · exact h
      · have b := hl.bounds y hy
        exact fun h' => h (b.2.2.1.trans (b.2.1.le.trans h'))

/-- looking up a point in pieces without gaps: found exactly between the first and the last break point -/
theorem chain_find {f : ℝ → ℝ} {lo hi : Ext ℝ} {l : PF ℝ} (h : Chain f lo hi l) (x : ℝ) :
    (lo ≤ .fin x → .fin x ≤ hi → ∃ s, l.findSegment x = some (some s)) ∧
      (.fin x < lo ∨ hi < .fin x → l.findSegment x = some none) := by
  have hw := h.wf 0
  have hnd : ∀ y ∈ l, ¬ (y.isDirac = true ∧ y.lo = Ext.fin x) := fun y hy h' => by
    rw [(h.bounds y hy).1] at h'; exact absurd h'.1 (by simp)
  rcases chain_split h x with ⟨l₁, s, l₂, rfl, h1, h2, h3⟩ | ⟨h1, l₁, s, rfl, h2⟩
  · have e := findSegment_mid hw (fun y hy => ⟨h1 y hy, hnd y (by simp [hy])⟩) (fun y hy h' => h2 y hy h'.1)
    have hs : .fin x < s.hi := not_le.1 (h2 s (by simp))
    have hb := h.bounds s (by simp)
    constructor
    · intro hlo hhi
      have hsl : s.lo ≤ .fin x := by
        rcases h3 with h3 | ⟨-, h3⟩
        · exact h3
        · rw [h3]; exact hlo
      refine ⟨s, ?_⟩
      rw [e]
      split_ifs with c1 c2
      · rfl
      · exact absurd ⟨hsl, hs.le⟩ c2
      · rfl
    · rintro (hx | hx)
      · have n : l₁ = [] := by
          by_contra hne
          obtain ⟨y, hy⟩ := List.exists_mem_of_ne_nil _ hne
          have b := h.bounds y (by simp [hy])
          exact absurd (hx.trans_le (b.2.2.1.trans (b.2.1.le.trans (h1 y hy)))) (lt_irrefl _)
        rw [e, if_pos n, if_neg]
        rintro ⟨h', -⟩
        exact absurd (hx.trans_le (hb.2.2.1.trans h')) (lt_irrefl _)
      · exact absurd (hx.trans (hs.trans_le hb.2.2.2)) (lt_irrefl _)
  · have e := findSegment_end hw (fun y hy => ⟨h1 y hy, hnd y hy⟩)
    constructor
    · intro hlo hhi
      refine ⟨s, ?_⟩
      rw [e, if_pos]
      exact le_antisymm (h1 s (by simp)) (h2 ▸ hhi)
    · rintro (hx | hx)
      · have b := h.bounds s (by simp)
        exact absurd (hx.trans_le (b.2.2.1.trans (b.2.1.le.trans (h1 s (by simp))))) (lt_irrefl _)
      · rw [e, if_neg]
        rw [h2]; exact hx.ne

theorem le_endOf : ∀ (l : List Break) (q : Break), (q :: l).Pairwise (fun p q => p.at_ < q.at_) → ∀ b ∈ q :: l, b.at_ ≤ endOf q.at_ l
  | [], q, _, b, hb => by rw [List.mem_singleton] at hb; subst hb; exact le_rfl
  | r :: l, q, h, b, hb => by
    have ih := le_endOf l r (List.pairwise_cons.1 h).2
    rcases List.mem_cons.1 hb with rfl | hb
    · exact ((List.pairwise_cons.1 h).1 r (by simp)).le.trans (ih r (by simp))
    · exact ih b hb

theorem endOf_mem : ∀ (l : List Break) (q : Break), ∃ b ∈ q :: l, b.at_ = endOf q.at_ l
  | [], q => ⟨q, by simp, rfl⟩
  | r :: l, q => by
    obtain ⟨b, hb, e⟩ := endOf_mem l r
    exact ⟨b, List.mem_cons_of_mem _ hb, e⟩

/-- the pieces of the moment generating function -/
theorem mgfPieces_find {eps : ℝ} (he : 0 ≤ eps) {l : PF ℝ} (hw : ∀ s ∈ l, s.WF) (h2 : 2 ≤ (PF.getBreaks l).length)
    (hend : ∀ a, PF.getBreaks l ≠ [a, .pinf]) :
    ∃ m, mgfPieces eps l = some m ∧ ∀ t, (InRange l t → ∃ s, m.findSegment t = some (some s)) ∧
      (¬ InRange l t → m.findSegment t = some none) := by
  have hs := Conv.getBreaks_sorted l
  obtain ⟨bps, hbps⟩ : ∃ bps, bps = PF.getBreaks l := ⟨_, rfl⟩
  have hmem : ∀ x, x ∈ bps ↔ ∃ s ∈ l, x = s.lo ∨ x = s.hi := fun x => by rw [hbps, mem_getBreaks]
  have hle : ∀ s ∈ l, s.lo ≤ s.hi := fun s h => Seg.lo_le_hi (hw s h)
  rw [mgfPieces]
  rw [← hbps] at h2 hend hs ⊢
  match bps, h2 with
  | b₀ :: b₁ :: r, _ =>
    obtain ⟨bs, hbs⟩ : ∃ bs : List Break, bs = r.map fun b => ⟨b, false, false⟩ := ⟨_, rfl⟩
    obtain ⟨p, hp⟩ : ∃ p : Break, p = ⟨b₀, false, false⟩ := ⟨_, rfl⟩
    obtain ⟨q, hq⟩ : ∃ q : Break, q = ⟨b₁, false, false⟩ := ⟨_, rfl⟩
    have hall : p :: q :: bs = (b₀ :: b₁ :: r).map fun b => ⟨b, false, false⟩ := by rw [hp, hq, hbs]; rfl
    have hs' : (p :: q :: bs).Pairwise fun p q => p.at_ < q.at_ := by
      rw [hall, List.pairwise_map]; exact hs
    have hc : (p :: q :: bs).IsChain FlagsOk := by
      rw [hall, List.isChain_map]
      exact (List.Pairwise.isChain hs).imp fun a b _ => by simp [FlagsOk]
    have he' : EndsOk (p :: q :: bs) := by
      match r, hbs, hend with
      | [], hbs, hend =>
        rw [hbs]
        intro h
        have h : b₁ = Ext.pinf := by rw [← h, hq]
        exact hend b₀ (by rw [h])
      | _ :: _, hbs, _ => rw [hbs]; trivial
    obtain ⟨m, hm, hch⟩ := pieces_chain (fun _ => 1) p q bs hs' hc he'
    have e0 : (p :: q :: bs).map Break.at_ = b₀ :: b₁ :: r := by rw [hall, List.map_map]; simp [Function.comp_def]
    have e1 : (p :: q :: bs).map Break.lp = (b₀ :: b₁ :: r).map fun _ => false := by rw [hall, List.map_map]; rfl
    have e2 : (p :: q :: bs).map Break.rp = (b₀ :: b₁ :: r).map fun _ => false := by rw [hall, List.map_map]; rfl
    have ho := ofFun_eq eps (fun _ => 1) p q bs hs'
    rw [hm, Option.bind_some, hch.addAll he, e0, e1, e2] at ho
    have hin : ∀ b : Break, b ∈ p :: q :: bs → b.at_ ∈ b₀ :: b₁ :: r := fun b hb => by
      rw [← e0]; exact List.mem_map_of_mem hb
    have hout : ∀ x ∈ b₀ :: b₁ :: r, ∃ b ∈ p :: q :: bs, b.at_ = x := fun x hx => by
      rw [← e0] at hx; exact List.mem_map.1 hx
    refine ⟨m, ho, fun t => ⟨?_, ?_⟩⟩
    · rintro ⟨⟨s, hs1, hs2⟩, u, hu1, hu2⟩
      refine (chain_find hch t).1 ?_ ?_
      · obtain ⟨b, hb, eb⟩ := hout _ ((hmem s.lo).2 ⟨s, hs1, .inl rfl⟩)
        rcases List.mem_cons.1 hb with rfl | hb
        · rw [eb]; exact hs2
        · exact (((List.pairwise_cons.1 hs').1 b hb).le).trans (eb ▸ hs2)
      · obtain ⟨b, hb, eb⟩ := hout _ ((hmem u.hi).2 ⟨u, hu1, .inr rfl⟩)
        have := le_endOf (q :: bs) p hs' b hb
        rw [eb] at this
        exact hu2.trans this
    · intro hn
      refine (chain_find hch t).2 ?_
      rw [InRange, not_and_or] at hn
      push Not at hn
      rcases hn with hn | hn
      · left
        obtain ⟨s, hs1, hs2⟩ := (hmem p.at_).1 (hin p (by simp))
        rcases hs2 with e | e
        · rw [e]; exact hn s hs1
        · rw [e]; exact (hn s hs1).trans_le (hle s hs1)
      · right
        obtain ⟨b, hb, eb⟩ := endOf_mem bs q
        rw [← eb]
        obtain ⟨s, hs1, hs2⟩ := (hmem b.at_).1 (hin b (List.mem_cons_of_mem _ hb))
        rcases hs2 with e | e
        · rw [e]; exact (hle s hs1).trans_lt (hn s hs1)
        · rw [e]; exact hn s hs1

/-! ### the fair mixture of 0 and the uniform distribution on `[0, 1]` -/

open ProbabilityTheory Conv

theorem halfAtom_breaks : PF.getBreaks halfAtom = [.fin 0, .fin 1] := by
  refine Quantile.getBreaks_eq (by simp [Ext.fin_lt_fin]) fun x => ?_
  rw [mem_getBreaks]
  simp only [halfAtom, List.mem_cons, List.not_mem_nil, or_false, exists_eq_or_imp, exists_eq_left]
  show (x = .fin 0 ∨ x = .fin 0) ∨ x = .fin 0 ∨ x = .fin 1 ↔ _
  tauto

theorem halfAtom_mgf {t : ℝ} (ht : t ≠ 0) : mgf id (PF.law halfAtom) t = 1 / 2 + (Real.exp t - 1) / (2 * t) := by
  show ∫ x, Real.exp (t * x) ∂_ = _
  rw [(halfAtom_int _ (by fun_prop)).2, intervalIntegral.integral_mul_const, intervalIntegral.integral_comp_mul_left _ ht, integral_exp]
  simp only [mul_zero, mul_one, Real.exp_zero, smul_eq_mul]
  field_simp

theorem halfAtom_inRange {t : ℝ} : InRange halfAtom t ↔ 0 ≤ t ∧ t ≤ 1 := by
  have e : ∀ (P : Seg ℝ → Prop), (∃ s ∈ halfAtom, P s) ↔ P (.dirac 0 (1 / 2)) ∨ P (.const 0 1 (1 / 2)) := fun P => by
    simp [halfAtom]
  rw [InRange, e, e]
  show ((.fin 0 : Ext ℝ) ≤ .fin t ∨ (.fin 0 : Ext ℝ) ≤ .fin t) ∧ ((.fin t : Ext ℝ) ≤ .fin 0 ∨ (.fin t : Ext ℝ) ≤ .fin 1) ↔ _
  rw [Ext.fin_le_fin, Ext.fin_le_fin, Ext.fin_le_fin]
  constructor
  · rintro ⟨h | h, h' | h'⟩ <;> constructor <;> linarith
  · exact fun h => ⟨.inl h.1, .inr h.2⟩

end Pacal.Summary
