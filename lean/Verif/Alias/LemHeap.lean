import Verif.Alias.Spec

/-! Helper lemmas for C96: one `addSegment` on the heap. -/

namespace Pacal
namespace Alias
variable {K : Type*} [Field K] [LinearOrder K]
open Function

/-- what adding pieces with addresses in `new` to the list `L` may change -/
structure Changed (h h' : Heap K) (L : ℕ) (new : ℕ → Prop) : Prop where
  next : h.next ≤ h'.next
  top : h'.top = h.top
  lists : ∀ L', L' ≠ L → h'.lists L' = h.lists L'
  sub : ∀ r ∈ h.lists L, r ∈ h'.lists L
  kept : ∀ r < h.next, ((h.segs r).isDirac = true → r ∉ h'.lists L) → h'.segs r = h.segs r
  kind : ∀ r < h.next, (h'.segs r).isDirac = (h.segs r).isDirac
  refs : ∀ r ∈ h'.lists L, r ∈ h.lists L ∨ new r ∨ h.next ≤ r
  bound : ∀ r ∈ h'.lists L, (∀ x ∈ h.lists L, x < h.next) → (∀ x, new x → x < h.next) → r < h'.next

theorem Changed.segs {h h' : Heap K} {L : ℕ} {new : ℕ → Prop} (hc : Changed h h' L new) (r : ℕ) (hr : r < h.next)
    (hx : (h.segs r).isDirac = true → r ∉ h.lists L ∧ ¬ new r) : h'.segs r = h.segs r := by
  refine hc.kept r hr fun hd hm => ?_
  rcases hc.refs r hm with h1 | h1 | h1
  · exact (hx hd).1 h1
  · exact (hx hd).2 h1
  · omega

theorem Changed.refl (h : Heap K) (L : ℕ) (new : ℕ → Prop) : Changed h h L new :=
  ⟨le_refl _, rfl, fun _ _ => rfl, fun _ hr => hr, fun _ _ _ => rfl, fun _ _ => rfl, fun _ hr => .inl hr, fun r hr hb _ => hb r hr⟩

/-- atoms of the list occur once -/
def Once (h : Heap K) (L : ℕ) : Prop := ((h.lists L).filter fun r => (h.segs r).isDirac).Nodup

theorem segs_grow {h : Heap K} {r : ℕ} {a m' : K} (e : h.segs r = .dirac a m') (m : K) :
    h.grow r m = { h with segs := update h.segs r (.dirac a (m' + m)) } := by
  unfold Heap.grow; rw [e]

theorem firstAtom_some {p : K → Prop} [DecidablePred p] {segs : ℕ → Seg K} {r : ℕ} : ∀ {l : List ℕ},
    firstAtom p segs l = some r → r ∈ l ∧ ∃ a m, segs r = .dirac a m
  | [], h => by simp [firstAtom] at h
  | x :: l, h => by
    rw [firstAtom] at h
    split at h
    · rename_i a m e
      split_ifs at h with hp
      · obtain rfl := Option.some.inj h
        exact ⟨by simp, a, m, e⟩
      · obtain ⟨h1, h2⟩ := firstAtom_some h
        exact ⟨by simp [h1], h2⟩
    · obtain ⟨h1, h2⟩ := firstAtom_some h
      exact ⟨by simp [h1], h2⟩

theorem changed_grow {h : Heap K} {r L : ℕ} {new : ℕ → Prop} (hr : r ∈ h.lists L) (hd : ∃ a m, h.segs r = .dirac a m) (m : K) :
    Changed h (h.grow r m) L new := by
  obtain ⟨a, m', e⟩ := hd
  rw [segs_grow e]
  refine ⟨le_refl _, rfl, fun _ _ => rfl, fun _ hr => hr, fun x _ hx => ?_, fun x _ => ?_, fun _ hr => .inl hr, fun r hr hb _ => hb r hr⟩
  · have : x ≠ r := by
      rintro rfl
      exact hx (by rw [e]; rfl) hr
    simp [this]
  · by_cases hx : x = r
    · subst hx; simp [e, Seg.isDirac]
    · simp [hx]

theorem map_update {segs : ℕ → Seg K} {r : ℕ} {s : Seg K} {l : List ℕ} (h : r ∉ l) : l.map (update segs r s) = l.map segs := by
  refine List.map_congr_left fun x hx => ?_
  have : x ≠ r := fun e => h (e ▸ hx)
  simp [this]

/-- the merging loop on the heap and on values -/
theorem firstAtom_merge {segs : ℕ → Seg K} (eps a m : K) : ∀ {l : List ℕ}, (l.filter fun r => (segs r).isDirac).Nodup →
    (firstAtom (fun a' => |a - a'| ≤ eps) segs l = none → PF.mergeDirac eps a m (l.map segs) = none) ∧
    (∀ r a' m', firstAtom (fun a' => |a - a'| ≤ eps) segs l = some r → segs r = .dirac a' m' →
      PF.mergeDirac eps a m (l.map segs) = some (l.map (update segs r (.dirac a' (m' + m)))))
  | [], _ => ⟨fun _ => rfl, fun r a' m' h => by simp [firstAtom] at h⟩
  | x :: l, hn => by
    have hn' : (l.filter fun r => (segs r).isDirac).Nodup := by
      rw [List.filter_cons] at hn
      split_ifs at hn
      · exact (List.nodup_cons.1 hn).2
      · exact hn
    obtain ⟨ih1, ih2⟩ := firstAtom_merge eps a m hn'
    rw [List.map_cons]
    rcases hx : segs x with ⟨p, u, v, f⟩ | ⟨u, v, c⟩ | ⟨v, f⟩ | ⟨u, f⟩ | ⟨u, w⟩
    case dirac =>
      have hxl : x ∉ l := by
        rw [List.filter_cons, if_pos (by rw [hx]; rfl), List.nodup_cons] at hn
        intro h; exact hn.1 (List.mem_filter.2 ⟨h, by rw [hx]; rfl⟩)
      by_cases hp : |a - u| ≤ eps
      · refine ⟨fun h => ?_, fun r a' m' h e => ?_⟩
        · simp only [firstAtom, hx] at h; rw [if_pos hp] at h; simp at h
        · simp only [firstAtom, hx] at h; rw [if_pos hp] at h
          obtain rfl := Option.some.inj h
          rw [hx] at e; obtain ⟨rfl, rfl⟩ := Seg.dirac.inj e
          rw [PF.mergeDirac, if_pos hp, List.map_cons, map_update hxl]; simp
      · refine ⟨fun h => ?_, fun r a' m' h e => ?_⟩
        · simp only [firstAtom, hx] at h; rw [if_neg hp] at h
          rw [PF.mergeDirac, if_neg hp, ih1 h]; rfl
        · simp only [firstAtom, hx] at h; rw [if_neg hp] at h
          have hne : x ≠ r := fun h' => hxl (h' ▸ (firstAtom_some h).1)
          rw [PF.mergeDirac, if_neg hp, ih2 r a' m' h e, List.map_cons]
          simp [hne, hx]
    all_goals
      refine ⟨fun h => ?_, fun r a' m' h e => ?_⟩
      · simp only [firstAtom, hx] at h
        simp only [PF.mergeDirac, ih1 h, Option.map_none]
      · simp only [firstAtom, hx] at h
        have hne : x ≠ r := by rintro rfl; rw [hx] at e; cases e
        simp only [PF.mergeDirac, ih2 r a' m' h e, List.map_cons, Option.map_some]
        simp [hne, hx]

theorem content_insort (h : Heap K) (L r : ℕ) : (h.insort L r).content L = Pacal.insort Seg.lt (h.content L) (h.segs r) := by
  simp [Heap.insort, Heap.content, Pacal.insort]

theorem mem_insort {h : Heap K} {L r x : ℕ} : x ∈ (h.insort L r).lists L ↔ x = r ∨ x ∈ h.lists L := by
  simp only [Heap.insort, update_self, List.mem_append, List.mem_cons]
  constructor
  · rintro (h1 | h1 | h1)
    · exact .inr (List.mem_of_mem_take h1)
    · exact .inl h1
    · exact .inr (List.mem_of_mem_drop h1)
  · rintro (h1 | h1)
    · exact .inr (.inl h1)
    · rw [← List.take_append_drop (bisectBy (fun y => !(Seg.lt (h.segs r) y)) (h.content L)) (h.lists L), List.mem_append] at h1
      exact h1.imp id .inr

theorem once_insort {h : Heap K} {L r : ℕ} (ho : Once h L) (hr : (h.segs r).isDirac = true → r ∉ h.lists L) : Once (h.insort L r) L := by
  unfold Once at *
  have : ((h.insort L r).lists L).Perm (r :: h.lists L) := by
    simp only [Heap.insort, update_self]
    refine List.perm_middle.trans ?_
    rw [List.take_append_drop]
  have h2 := (this.filter fun r => (h.segs r).isDirac).nodup_iff
  refine h2.2 ?_
  rw [List.filter_cons]
  split_ifs with hd
  · refine List.nodup_cons.2 ⟨fun hx => hr hd (List.mem_filter.1 hx).1, ho⟩
  · exact ho

theorem changed_insort {h : Heap K} {L r : ℕ} {new : ℕ → Prop} (hr : new r) : Changed h (h.insort L r) L new := by
  refine ⟨le_refl _, rfl, fun L' h' => by simp [Heap.insort, h'], fun x hx => mem_insort.2 (.inr hx), fun _ _ _ => rfl, fun _ _ => rfl, fun x hx => ?_, fun x hx hb hn => ?_⟩
  · rcases mem_insort.1 hx with rfl | hx
    · exact .inr (.inl hr)
    · exact .inl hx
  · rcases mem_insort.1 hx with rfl | hx
    · exact hn _ hr
    · exact hb _ hx

theorem content_alloc {h : Heap K} {L : ℕ} (hb : ∀ x ∈ h.lists L, x < h.next) (s : Seg K) : (h.alloc s).content L = h.content L := by
  unfold Heap.content Heap.alloc
  exact map_update fun hx => (hb _ hx).ne rfl

/-- `place` on the heap does what `insertSeg` does on values -/
theorem place_spec {h : Heap K} {L r : ℕ} {new : ℕ → Prop} (hb : ∀ x ∈ h.lists L, x < h.next) (hn : new r) (ho : Once h L)
    (hr : (h.segs r).isDirac = true → r ∉ h.lists L) :
    (PF.insertSeg (h.content L) (h.segs r) = none → h.place L r = none) ∧
    ∀ l, PF.insertSeg (h.content L) (h.segs r) = some l → ∃ h', h.place L r = some h' ∧ h'.content L = l ∧ Once h' L ∧ Changed h h' L new := by
  have hins : ∀ h' : Heap K, h.place L r = some h' → h' = h.insort L r →
      ∀ l, some (Pacal.insort Seg.lt (h.content L) (h.segs r)) = some l →
      ∃ h', h.place L r = some h' ∧ h'.content L = l ∧ Once h' L ∧ Changed h h' L new := by
    rintro h' e rfl l el
    exact ⟨_, e, by rw [content_insort]; exact Option.some.inj el, once_insort ho hr, changed_insort hn⟩
  rcases e : (h.content L)[bisectLeft Seg.lt (h.content L) (h.segs r)]? with _ | t
  · have e2 : h.place L r = some (h.insort L r) := by simp only [Heap.place, e]
    have e3 : PF.insertSeg (h.content L) (h.segs r) = some (Pacal.insort Seg.lt (h.content L) (h.segs r)) := by
      simp only [PF.insertSeg, e]
    refine ⟨fun h1 => (by rw [e3] at h1; cases h1), fun l hl => hins _ e2 rfl l (by rw [← e3, hl])⟩
  · by_cases hc : (t.gt (h.segs r) || (h.segs r).gt t) = true
    · have e2 : h.place L r = some (h.insort L r) := by simp only [Heap.place, e]; rw [if_pos hc]
      have e3 : PF.insertSeg (h.content L) (h.segs r) = some (Pacal.insort Seg.lt (h.content L) (h.segs r)) := by
        simp only [PF.insertSeg, e]; rw [if_pos hc]
      refine ⟨fun h1 => (by rw [e3] at h1; cases h1), fun l hl => hins _ e2 rfl l (by rw [← e3, hl])⟩
    · have key : ∀ u m, h.segs r = .dirac u m → ∀ a, t.lo = .fin a →
          PF.insertSeg (h.content L) (h.segs r) =
            (if t.gt (.dirac a m) || Seg.gt (.dirac a m) t then some (Pacal.insort Seg.lt (h.content L) (.dirac a m)) else none) := by
        intro u m hd a ha
        rw [hd] at e hc ⊢
        simp only [PF.insertSeg, e]; rw [if_neg hc]
        rcases t with ⟨p, a', b', f⟩ | ⟨a', b', c⟩ | ⟨b', f⟩ | ⟨a', f⟩ | ⟨a', w⟩ <;> simp only [Seg.lo] at ha
        all_goals first | (cases ha; rfl) | cases ha
      have keyP : ∀ u m, h.segs r = .dirac u m → ∀ a, t.lo = .fin a → h.place L r =
          (if t.gt (.dirac a m) || Seg.gt (.dirac a m) t then some ((h.alloc (.dirac a m)).insort L h.next) else none) := by
        intro u m hd a ha
        unfold Heap.place
        simp only [e]; rw [if_neg hc]
        split
        · rename_i u' m' a' e1 e2
          rw [hd] at e1; rw [ha] at e2
          cases e1; cases e2; rfl
        · rename_i hno
          exact absurd ha (hno _ _ _ hd)
      have other : (∀ u m, h.segs r = .dirac u m → ∀ a, t.lo ≠ .fin a) →
          PF.insertSeg (h.content L) (h.segs r) = none ∧ h.place L r = none := by
        intro hno
        constructor
        · simp only [PF.insertSeg, e]; rw [if_neg hc]
          rcases hd : h.segs r with ⟨p, u, v, f⟩ | ⟨u, v, c⟩ | ⟨v, f⟩ | ⟨u, f⟩ | ⟨u, w⟩ <;> try rfl
          rcases t with ⟨p, a', b', f⟩ | ⟨a', b', c⟩ | ⟨b', f⟩ | ⟨a', f⟩ | ⟨a', w'⟩ <;>
            first | rfl | exact absurd rfl (hno _ _ hd _)
        · unfold Heap.place
          simp only [e]; rw [if_neg hc]
          split
          · rename_i u m a e1 e2; exact absurd e2 (hno _ _ e1 _)
          · rfl
      by_cases hno : ∀ u m, h.segs r = .dirac u m → ∀ a, t.lo ≠ .fin a
      · obtain ⟨o1, o2⟩ := other hno
        exact ⟨fun _ => o2, fun l hl => by rw [o1] at hl; cases hl⟩
      · push Not at hno
        obtain ⟨u, m, hd, a, ha⟩ := hno
        rw [key u m hd a ha, keyP u m hd a ha]
        by_cases hc2 : (t.gt (.dirac a m) || Seg.gt (.dirac a m) t) = true
        · rw [if_pos hc2, if_pos hc2]
          refine ⟨fun h1 => (by cases h1), fun l hl => ⟨_, rfl, ?_, ?_, ?_⟩⟩
          · rw [content_insort, content_alloc hb]
            simp only [Heap.alloc, update_self]; exact Option.some.inj hl
          · refine once_insort ?_ fun _ hx => (hb _ hx).ne rfl
            unfold Once at *
            have : (List.filter (fun r => ((h.alloc (.dirac a m)).segs r).isDirac) ((h.alloc (.dirac a m)).lists L)) =
                List.filter (fun r => (h.segs r).isDirac) (h.lists L) := by
              refine List.filter_congr fun x hx => ?_
              have : x ≠ h.next := (hb x hx).ne
              simp [Heap.alloc, this]
            rw [this]; exact ho
          · refine ⟨Nat.le_succ _, rfl, fun L' h' => by simp [Heap.insort, Heap.alloc, h'],
              fun x hx => mem_insort.2 (.inr hx), fun x hx _ => ?_, fun x hx => ?_,
              fun x hx => ?_, fun x hx hb' _ => ?_⟩
            · simp [Heap.insort, Heap.alloc, hx.ne]
            · simp [Heap.insort, Heap.alloc, hx.ne]
            · rcases mem_insort.1 hx with rfl | hx
              · exact .inr (.inr (le_refl _))
              · exact .inl hx
            · rcases mem_insort.1 hx with rfl | hx
              · exact Nat.lt_succ_self _
              · exact (hb _ hx).trans (Nat.lt_succ_self _)
        · rw [if_neg hc2, if_neg hc2]
          exact ⟨fun _ => rfl, fun l hl => by cases hl⟩

/-- `addSegment` on the heap does what it does on values -/
theorem addSegment_spec {eps : K} {h : Heap K} {L r : ℕ} {new : ℕ → Prop} (hb : ∀ x ∈ h.lists L, x < h.next) (hn : new r)
    (ho : Once h L) (hr : (h.segs r).isDirac = true → r ∉ h.lists L) :
    (PF.addSegment eps (h.content L) (h.segs r) = none → h.addSegment eps L r = none) ∧
    ∀ l, PF.addSegment eps (h.content L) (h.segs r) = some l →
      ∃ h', h.addSegment eps L r = some h' ∧ h'.content L = l ∧ Once h' L ∧ Changed h h' L new := by
  have hp := place_spec hb hn ho hr
  rcases e : h.segs r with ⟨p, u, v, f⟩ | ⟨u, v, c⟩ | ⟨v, f⟩ | ⟨u, f⟩ | ⟨u, w⟩
  case dirac =>
    rw [e] at hp
    obtain ⟨m1, m2⟩ := firstAtom_merge (segs := h.segs) eps u w ho
    rcases ef : firstAtom (fun a' => |u - a'| ≤ eps) h.segs (h.lists L) with _ | r'
    · have e1 : h.addSegment eps L r = h.place L r := by simp only [Heap.addSegment, e, ef]
      have e2 : PF.mergeDirac eps u w (h.content L) = none := m1 ef
      have e3 : PF.addSegment eps (h.content L) (.dirac u w) = PF.insertSeg (h.content L) (.dirac u w) := by
        simp only [PF.addSegment, e2]
      rw [e1, e3]; exact hp
    · obtain ⟨hm, a', m', e'⟩ := firstAtom_some ef
      have e1 : h.addSegment eps L r = some (h.grow r' w) := by simp only [Heap.addSegment, e, ef]
      have e2 : PF.mergeDirac eps u w (h.content L) = _ := m2 r' a' m' ef e'
      rw [e1]
      simp only [PF.addSegment, e2]
      refine ⟨fun h1 => (by cases h1), fun l hl => ⟨_, rfl, ?_, ?_, changed_grow hm ⟨a', m', e'⟩ w⟩⟩
      · rw [segs_grow e']; exact Option.some.inj hl
      · unfold Once at *
        rw [segs_grow e']
        have : (List.filter (fun r => (update h.segs r' (Seg.dirac a' (m' + w)) r).isDirac) (h.lists L)) =
            List.filter (fun r => (h.segs r).isDirac) (h.lists L) := by
          refine List.filter_congr fun x _ => ?_
          by_cases hx : x = r'
          · subst hx; simp [e', Seg.isDirac]
          · simp [hx]
        simp only [this]; exact ho
  all_goals
    rw [e] at hp
    have e1 : h.addSegment eps L r = h.place L r := by simp only [Heap.addSegment, e]
    rw [e1]; exact hp

theorem Changed.trans {h h' h'' : Heap K} {L : ℕ} {new : ℕ → Prop} (hb : ∀ x ∈ h.lists L, x < h.next) (hn : ∀ x, new x → x < h.next)
    (h1 : Changed h h' L new) (h2 : Changed h' h'' L new) : Changed h h'' L new := by
  refine ⟨h1.next.trans h2.next, h2.top.trans h1.top, fun L' e => (h2.lists L' e).trans (h1.lists L' e),
    fun r hr => h2.sub r (h1.sub r hr), fun r hr hx => ?_,
    fun r hr => (h2.kind r (hr.trans_le h1.next)).trans (h1.kind r hr), fun r hr => ?_, fun r hr _ _ => ?_⟩
  · rw [h2.kept r (hr.trans_le h1.next) (fun hd => hx (by rw [← h1.kind r hr]; exact hd)),
      h1.kept r hr fun hd hm => hx hd (h2.sub r hm)]
  · rcases h2.refs r hr with h3 | h3 | h3
    · exact h1.refs r h3
    · exact .inr (.inl h3)
    · exact .inr (.inr (h1.next.trans h3))
  · exact h2.bound r hr (fun x hx => h1.bound x hx hb hn) fun x hx => (hn x hx).trans_le h1.next

end Alias
end Pacal
