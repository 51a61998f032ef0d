import Verif.Conv.SumPair
import Verif.Util.PropsBreaks
import Verif.Push.Shift

/-! The break points of the sum. -/

namespace Pacal
namespace Conv
open MeasureTheory Set Transform Breaks

theorem mergeFrom_sublist (eps : ℝ) : ∀ (rest : List (Brk ℝ)) (cur : Brk ℝ),
    ((mergeFrom eps cur rest).map Brk.x).Sublist (cur.x :: rest.map Brk.x)
  | [], cur => by simp [mergeFrom]
  | b :: rest, cur => by
    rw [mergeFrom]
    split_ifs
    · have h : ((mergeFrom eps (cur.or b) rest).map Brk.x).Sublist (cur.x :: rest.map Brk.x) := mergeFrom_sublist eps rest (cur.or b)
      refine h.trans ?_
      simp
    · rw [List.map_cons]
      exact (mergeFrom_sublist eps rest b).cons_cons _

/-- infinite points occur once -/
def OnceInf (l : List (Ext ℝ)) : Prop := l.Pairwise fun a b => a = b → ∃ c, a = .fin c

theorem uniqueX_once {e : ℝ} {l : List (Ext ℝ)} (h : OnceInf l) : OnceInf (uniqueX e l) := by
  unfold uniqueX uniqueBreakpoints
  obtain ⟨l', hl'⟩ : ∃ l', l' = l.map fun x => (⟨x, false, false, false, false⟩ : Brk ℝ) := ⟨_, rfl⟩
  rw [← hl']
  have hp := List.perm_insertionSort (fun a b : Brk ℝ => a.key ≤ b.key) l'
  have hx : l'.map Brk.x = l := by rw [hl', List.map_map]; simp [Function.comp_def]
  have hsym : ∀ {a b : Ext ℝ}, (a = b → ∃ c, a = .fin c) → (b = a → ∃ c, b = .fin c) := by
    rintro a b h rfl; exact h rfl
  have h' : OnceInf ((l'.insertionSort fun a b => a.key ≤ b.key).map Brk.x) := by
    have := (hp.map Brk.x)
    rw [hx] at this
    exact (this.pairwise_iff hsym).2 h
  cases hs : l'.insertionSort fun a b => a.key ≤ b.key with
  | nil => exact List.Pairwise.nil
  | cons b rest =>
    rw [hs] at h'
    exact List.Pairwise.sublist (mergeFrom_sublist e rest b) h'

theorem uniqueX_spec {e : ℝ} (he : 0 ≤ e) {l : List (Ext ℝ)} (h : OnceInf l)
    (hs : ∀ a b, Ext.fin a ∈ l → Ext.fin b ∈ l → a ≠ b → e < |a - b|) :
    (uniqueX e l).Pairwise (· < ·) ∧ ∀ x, x ∈ uniqueX e l ↔ x ∈ l := by
  obtain ⟨c1, c2, c3⟩ := C17_unique_breakpoints e (l.map fun x => (⟨x, false, false, false, false⟩ : Brk ℝ))
  constructor
  · have h1 : (uniqueX e l).Pairwise fun a b => a ≤ b ∧ ¬ Close e a b := by
      rw [uniqueX, List.pairwise_map]; exact c1
    refine (h1.and (uniqueX_once h)).imp ?_
    rintro a b ⟨⟨h1, h2⟩, h3⟩
    refine lt_of_le_of_ne h1 fun hab => ?_
    obtain ⟨c, rfl⟩ := h3 hab
    exact h2 ⟨c, c, rfl, hab.symm, by simpa using he⟩
  · intro x
    constructor
    · intro hx
      obtain ⟨o, ho, rfl⟩ := List.mem_map.1 hx
      obtain ⟨b, hb, e1⟩ := (c3 o ho).1
      obtain ⟨y, hy, rfl⟩ := List.mem_map.1 hb
      rw [← e1]; exact hy
    · intro hx
      obtain ⟨o, ho, -, h2, -⟩ := c2 _ (List.mem_map_of_mem hx)
      obtain ⟨b, hb, e1⟩ := (c3 o ho).1
      obtain ⟨y, hy, rfl⟩ := List.mem_map.1 hb
      have : o.x = x := by
        rcases h2 with h2 | ⟨p, q, h3, h4, h5⟩
        · exact h2
        · by_contra hne
          dsimp only at h4 e1
          subst h4
          rw [h3] at e1
          subst e1
          refine absurd h5 (not_le.2 (hs p q hy hx ?_))
          rintro rfl
          exact hne h3
      rw [← this]
      exact List.mem_map_of_mem ho

theorem mem_finites {l : List (Ext ℝ)} {a : ℝ} : a ∈ finites l ↔ Ext.fin a ∈ l := by
  unfold finites
  rw [List.mem_filterMap]
  constructor
  · rintro ⟨x, hx, h⟩
    rcases x with _ | _ | x
    · simp at h
    · simp at h
    · simp at h; subst h; exact hx
  · intro h
    exact ⟨_, h, rfl⟩

theorem mem_breaksExt {eps : ℝ} {l : PF ℝ} (hw : PF.WF eps l) (hg : l.NoHole) {s : Seg ℝ} (hs : s ∈ l) :
    s.lo ∈ breaksExt l ∧ s.hi ∈ breaksExt l := by
  cases l with
  | nil => simp at hs
  | cons u r =>
    have hh : s.hi ∈ breaksExt (u :: r) := List.mem_cons_of_mem _ (List.mem_map_of_mem hs)
    refine ⟨?_, hh⟩
    rcases hg s hs with h | ⟨t, ht, e⟩
    · have h1 := h u (by simp)
      have h2 : u.lo ≤ s.lo := by
        rcases List.mem_cons.1 hs with rfl | hs
        · exact le_rfl
        · have := (List.pairwise_cons.1 hw.sorted).1 s hs
          exact (u.lo_le_hi (hw.seg u (by simp))).trans this.1
      rw [le_antisymm h1 h2]
      exact List.mem_cons_self ..
    · rw [← e]
      exact List.mem_cons_of_mem _ (List.mem_map_of_mem ht)

theorem breaksExt_mem {l : PF ℝ} {x : Ext ℝ} (h : x ∈ breaksExt l) : ∃ s ∈ l, s.lo = x ∨ s.hi = x := by
  cases l with
  | nil => simp [breaksExt] at h
  | cons u r =>
    rcases List.mem_cons.1 h with rfl | h
    · exact ⟨u, by simp, .inl rfl⟩
    · obtain ⟨s, hs, rfl⟩ := List.mem_map.1 h
      exact ⟨s, hs, .inr rfl⟩

theorem mem_finites_ends {l : PF ℝ} {a : ℝ} (h : a ∈ finites (breaksExt l)) : a ∈ l.ends := breaksExt_mem (mem_finites.1 h)

theorem exists_finite {l : PF ℝ} (hl : l ≠ []) : finites (breaksExt l) ≠ [] := by
  cases l with
  | nil => exact absurd rfl hl
  | cons u r =>
    have : ∃ a, Ext.fin a ∈ breaksExt (u :: r) := by
      cases u with
      | fin p a b f => exact ⟨a, by simp [breaksExt, Seg.lo]⟩
      | const a b c => exact ⟨a, by simp [breaksExt, Seg.lo]⟩
      | minf b f => exact ⟨b, by simp [breaksExt, Seg.hi]⟩
      | pinf a f => exact ⟨a, by simp [breaksExt, Seg.lo]⟩
      | dirac a m => exact ⟨a, by simp [breaksExt, Seg.lo]⟩
    obtain ⟨a, ha⟩ := this
    exact List.ne_nil_of_mem (mem_finites.2 ha)

theorem mem_sumBreaks_fin {f g : PF ℝ} {c : ℝ} :
    Ext.fin c ∈ sumBreaks f g ↔ ∃ a b, Ext.fin a ∈ breaksExt f ∧ Ext.fin b ∈ breaksExt g ∧ c = a + b := by
  have key : Ext.fin c ∈ ((finites (breaksExt f)).flatMap fun a => (finites (breaksExt g)).map fun b => Ext.fin (a + b)) ↔
      ∃ a b, Ext.fin a ∈ breaksExt f ∧ Ext.fin b ∈ breaksExt g ∧ c = a + b := by
    simp only [List.mem_flatMap, List.mem_map, mem_finites, fin_inj]
    constructor
    · rintro ⟨a, ha, b, hb, e⟩; exact ⟨a, b, ha, hb, e.symm⟩
    · rintro ⟨a, b, ha, hb, e⟩; exact ⟨a, ha, b, hb, e.symm⟩
  rw [← key, sumBreaks]
  have n1 : Ext.fin c ≠ Ext.ninf := (ninf_lt_extFin c).ne'
  have n2 : Ext.fin c ≠ Ext.pinf := (extFin_lt_pinf c).ne
  split_ifs <;> simp [n1, n2]

theorem ninf_ne_pinf : (Ext.ninf : Ext ℝ) ≠ Ext.pinf := (WithBot.bot_lt_coe _).ne

theorem mem_sumBreaks_ninf {f g : PF ℝ} (hf : f ≠ []) :
    Ext.ninf ∈ sumBreaks f g ↔ Ext.ninf ∈ breaksExt f ∨ Ext.ninf ∈ breaksExt g := by
  have n1 : ∀ c : ℝ, Ext.fin c ≠ Ext.ninf := fun c => (ninf_lt_extFin c).ne'
  have e := exists_finite hf
  rw [sumBreaks]
  split_ifs with h1 h2 h2 <;>
    simp only [List.mem_append, List.mem_cons, List.mem_flatMap, List.mem_map, n1, and_false, exists_false, or_false,
      true_iff, ninf_ne_pinf, List.not_mem_nil, false_iff]
  all_goals simp only [e, ne_eq, not_false_eq_true, true_and] at h1 h2
  all_goals assumption

theorem mem_sumBreaks_pinf {f g : PF ℝ} (hf : f ≠ []) :
    Ext.pinf ∈ sumBreaks f g ↔ Ext.pinf ∈ breaksExt f ∨ Ext.pinf ∈ breaksExt g := by
  have n1 : ∀ c : ℝ, Ext.fin c ≠ Ext.pinf := fun c => (extFin_lt_pinf c).ne
  have e := exists_finite hf
  rw [sumBreaks]
  split_ifs with h1 h2 h2 <;>
    simp only [List.mem_append, List.mem_cons, List.mem_flatMap, List.mem_map, n1, and_false, exists_false, or_false, or_true,
      true_iff, ninf_ne_pinf.symm, List.not_mem_nil, false_iff]
  all_goals simp only [e, ne_eq, not_false_eq_true, true_and] at h1 h2
  all_goals assumption

theorem sumBreaks_once (f g : PF ℝ) : OnceInf (sumBreaks f g) := by
  have h0 : ∀ x ∈ ((finites (breaksExt f)).flatMap fun a => (finites (breaksExt g)).map fun b => Ext.fin (a + b)), ∃ c, x = Ext.fin c := by
    intro x hx
    simp only [List.mem_flatMap, List.mem_map] at hx
    obtain ⟨a, -, b, -, rfl⟩ := hx
    exact ⟨_, rfl⟩
  have n1 : ∀ c : ℝ, Ext.fin c ≠ Ext.ninf := fun c => (ninf_lt_extFin c).ne'
  have n2 : ∀ c : ℝ, Ext.fin c ≠ Ext.pinf := fun c => (extFin_lt_pinf c).ne
  have p0 : OnceInf ((finites (breaksExt f)).flatMap fun a => (finites (breaksExt g)).map fun b => Ext.fin (a + b)) :=
    List.pairwise_of_forall_mem_list fun a ha b _ _ => h0 a ha
  rw [sumBreaks]
  obtain ⟨L, hL⟩ : ∃ L, L = ((finites (breaksExt f)).flatMap fun a => (finites (breaksExt g)).map fun b => Ext.fin (a + b)) := ⟨_, rfl⟩
  rw [← hL] at h0 p0 ⊢
  have p1 : OnceInf (Ext.ninf :: L) := by
    refine List.pairwise_cons.2 ⟨?_, p0⟩
    intro x hx e
    obtain ⟨c, rfl⟩ := h0 x hx
    exact absurd e.symm (n1 c)
  have p2 : ∀ M : List (Ext ℝ), OnceInf M → Ext.pinf ∉ M → OnceInf (M ++ [Ext.pinf]) := by
    intro M hM hn
    refine List.pairwise_append.2 ⟨hM, by simp, ?_⟩
    intro a ha b hb e
    rw [List.mem_singleton] at hb
    exact absurd (hb ▸ e ▸ ha) hn
  have q0 : Ext.pinf ∉ L := fun h => by obtain ⟨c, e⟩ := h0 _ h; exact n2 c e.symm
  have q1 : Ext.pinf ∉ Ext.ninf :: L := by
    rw [List.mem_cons]; rintro (h | h)
    · exact ninf_ne_pinf h.symm
    · exact q0 h
  split_ifs
  · exact p2 _ p1 q1
  · exact p2 _ p0 q0
  · exact p1
  · exact p0

/-- consecutive break points leave no third one in between -/
theorem infix_between {l : List (Ext ℝ)} (h : l.Pairwise (· < ·)) {a b c : Ext ℝ} (hab : [a, b] <:+: l) (hc : c ∈ l) :
    c ≤ a ∨ b ≤ c := by
  obtain ⟨s, t, rfl⟩ := hab
  rw [List.append_assoc] at h hc
  obtain ⟨h1, h2, h3⟩ := List.pairwise_append.1 h
  rcases List.mem_append.1 hc with hc | hc
  · exact .inl (h3 c hc a (by simp)).le
  · rcases List.mem_cons.1 hc with rfl | hc
    · exact .inl le_rfl
    · rcases List.mem_cons.1 hc with rfl | hc
      · exact .inr le_rfl
      · have := (List.pairwise_cons.1 (List.pairwise_cons.1 h2).2).1 c hc
        exact .inr this.le

theorem not_inside {l : List (Ext ℝ)} (h : l.Pairwise (· < ·)) {c : Ext ℝ} (hc : c ∈ l) (a b : Ext ℝ) (hab : [a, b] <:+: l) :
    ¬ (a < c ∧ c < b) := by
  rintro ⟨h1, h2⟩
  rcases infix_between h hab hc with h' | h'
  · exact absurd h1 (not_lt.2 h')
  · exact absurd h2 (not_lt.2 h')

theorem infix_lt {l : List (Ext ℝ)} (h : l.Pairwise (· < ·)) {a b : Ext ℝ} (hab : [a, b] <:+: l) : a < b := by
  have := h.sublist hab.sublist
  simpa using this

/-- a threshold between consecutive break points -/
theorem threshold {l : List (Ext ℝ)} (h : l.Pairwise (· < ·)) {a b : Ext ℝ} (hab : [a, b] <:+: l) {c : ℝ}
    (hc : Ext.fin c ∈ l) {x z : ℝ} (hx : x ∈ interE a b) (hz : z ∈ interE a b) : (c < x ↔ c < z) ∧ (x < c ↔ z < c) := by
  rcases infix_between h hab hc with h1 | h1
  · have e1 := extFin_lt.1 (lt_of_le_of_lt h1 hx.1)
    have e2 := extFin_lt.1 (lt_of_le_of_lt h1 hz.1)
    exact ⟨⟨fun _ => e2, fun _ => e1⟩, ⟨fun h => absurd e1 (not_lt.2 h.le), fun h => absurd e2 (not_lt.2 h.le)⟩⟩
  · have e1 := extFin_lt.1 (lt_of_lt_of_le hx.2 h1)
    have e2 := extFin_lt.1 (lt_of_lt_of_le hz.2 h1)
    exact ⟨⟨fun h => absurd e1 (not_lt.2 h.le), fun h => absurd e2 (not_lt.2 h.le)⟩, ⟨fun _ => e2, fun _ => e1⟩⟩

end Conv
end Pacal
