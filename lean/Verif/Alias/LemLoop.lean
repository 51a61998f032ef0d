import Verif.Alias.LemHeap

/-! Helper lemmas for C96: loops of `addSegment` and `add_diracs` on the heap. -/

namespace Pacal
namespace Alias
variable {K : Type*} [Field K] [LinearOrder K]
open Function

theorem Changed.mono {h h' : Heap K} {L : ℕ} {p q : ℕ → Prop} (hc : Changed h h' L p) (hpq : ∀ x, p x → q x) : Changed h h' L q :=
  ⟨hc.next, hc.top, hc.lists, hc.sub, hc.kept, hc.kind,
    fun r hr => by
      rcases hc.refs r hr with h1 | h1 | h1
      · exact .inl h1
      · exact .inr (.inl (hpq r h1))
      · exact .inr (.inr h1),
    fun r hr hb hn => hc.bound r hr hb fun x hx => hn x (hpq x hx)⟩

/-- the pieces still to be added are not affected by adding the first one -/
theorem rest_ok {h h' : Heap K} {L r : ℕ} {rs : List ℕ} (hlt : ∀ x ∈ r :: rs, x < h.next) (hnd : (r :: rs).Nodup)
    (hr : ∀ x ∈ r :: rs, (h.segs x).isDirac = true → x ∉ h.lists L) (hc : Changed h h' L (· = r)) :
    (∀ x ∈ rs, x < h'.next) ∧ (∀ x ∈ rs, (h'.segs x).isDirac = true → x ∉ h'.lists L) ∧ rs.map h'.segs = rs.map h.segs := by
  have hne : ∀ x ∈ rs, x ≠ r := fun x hx e => (List.nodup_cons.1 hnd).1 (e ▸ hx)
  refine ⟨fun x hx => (hlt x (by simp [hx])).trans_le hc.next, fun x hx hd hm => ?_, List.map_congr_left fun x hx => ?_⟩
  · have hxn := hlt x (by simp [hx])
    rw [hc.kind x hxn] at hd
    rcases hc.refs x hm with h1 | h1 | h1
    · exact hr x (by simp [hx]) hd h1
    · exact hne x hx h1
    · omega
  · exact hc.segs x (hlt x (by simp [hx])) fun hd => ⟨hr x (by simp [hx]) hd, hne x hx⟩

theorem addUntil_spec (eps : K) {L : ℕ} : ∀ {rs : List ℕ} {h : Heap K}, (∀ x ∈ h.lists L, x < h.next) → (∀ x ∈ rs, x < h.next) →
    rs.Nodup → Once h L → (∀ x ∈ rs, (h.segs x).isDirac = true → x ∉ h.lists L) →
    (h.addUntil eps L rs).1.content L = addWhile eps (h.content L) (rs.map h.segs) ∧
    (if (h.addUntil eps L rs).2 then some ((h.addUntil eps L rs).1.content L) else none) =
      PF.addAll eps (h.content L) (rs.map h.segs) ∧
    Once (h.addUntil eps L rs).1 L ∧ Changed h (h.addUntil eps L rs).1 L (· ∈ rs)
  | [], h, _, _, _, ho, _ => ⟨rfl, rfl, ho, Changed.refl _ _ _⟩
  | r :: rs, h, hb, hlt, hnd, ho, hr => by
    obtain ⟨s1, s2⟩ := addSegment_spec (eps := eps) (new := (· = r)) hb rfl ho (hr r (by simp))
    rcases e : PF.addSegment eps (h.content L) (h.segs r) with _ | l
    · have e1 := s1 e
      rw [Heap.addUntil, e1, List.map_cons, addWhile, e, PF.addAll, e]
      exact ⟨rfl, rfl, ho, Changed.refl _ _ _⟩
    · obtain ⟨h', e1, e2, ho', hc⟩ := s2 l e
      obtain ⟨r1, r2, r3⟩ := rest_ok hlt hnd hr hc
      have hb' : ∀ x ∈ h'.lists L, x < h'.next := fun x hx => hc.bound x hx hb (by rintro _ rfl; exact hlt _ (by simp))
      obtain ⟨i1, i2, i3, i4⟩ := addUntil_spec eps (L := L) hb' r1 (List.nodup_cons.1 hnd).2 ho' r2
      rw [Heap.addUntil, e1, List.map_cons, addWhile, e, PF.addAll, e]
      simp only [Option.bind_some]
      rw [r3, e2] at i1 i2
      refine ⟨i1, i2, i3, ?_⟩
      exact Changed.trans hb hlt (hc.mono fun x hx => by simp [hx]) (i4.mono fun x hx => by simp [hx])

/-- the loop for an atom at exactly the same place, on the heap and on values -/
theorem firstAtom_bump {segs : ℕ → Seg K} (a m : K) : ∀ {l : List ℕ}, (l.filter fun r => (segs r).isDirac).Nodup →
    (firstAtom (fun a' => a' = a) segs l = none → PF.getDirac a (l.map segs) = none) ∧
    (∀ r a' m', firstAtom (fun a' => a' = a) segs l = some r → segs r = .dirac a' m' →
      (PF.getDirac a (l.map segs)).isNone = false ∧
      Conv.bumpDirac a m (l.map segs) = l.map (update segs r (.dirac a' (m' + m))))
  | [], _ => ⟨fun _ => rfl, fun r a' m' h => by simp [firstAtom] at h⟩
  | x :: l, hn => by
    have hn' : (l.filter fun r => (segs r).isDirac).Nodup := by
      rw [List.filter_cons] at hn
      split_ifs at hn
      · exact (List.nodup_cons.1 hn).2
      · exact hn
    obtain ⟨ih1, ih2⟩ := firstAtom_bump a m hn'
    rw [List.map_cons]
    rcases hx : segs x with ⟨p, u, v, f⟩ | ⟨u, v, c⟩ | ⟨v, f⟩ | ⟨u, f⟩ | ⟨u, w⟩
    case dirac =>
      have hxl : x ∉ l := by
        rw [List.filter_cons, if_pos (by rw [hx]; rfl), List.nodup_cons] at hn
        intro h; exact hn.1 (List.mem_filter.2 ⟨h, by rw [hx]; rfl⟩)
      by_cases hp : u = a
      · refine ⟨fun h => ?_, fun r a' m' h e => ?_⟩
        · simp only [firstAtom, hx] at h; rw [if_pos hp] at h; simp at h
        · simp only [firstAtom, hx] at h; rw [if_pos hp] at h
          obtain rfl := Option.some.inj h
          rw [hx] at e; obtain ⟨rfl, rfl⟩ := Seg.dirac.inj e
          rw [PF.getDirac, if_pos hp, Conv.bumpDirac, if_pos hp, List.map_cons, map_update hxl]; simp
      · refine ⟨fun h => ?_, fun r a' m' h e => ?_⟩
        · simp only [firstAtom, hx] at h; rw [if_neg hp] at h
          rw [PF.getDirac, if_neg hp, ih1 h]
        · simp only [firstAtom, hx] at h; rw [if_neg hp] at h
          have hne : x ≠ r := fun h' => hxl (h' ▸ (firstAtom_some h).1)
          obtain ⟨j1, j2⟩ := ih2 r a' m' h e
          rw [PF.getDirac, if_neg hp, Conv.bumpDirac, if_neg hp, j2, List.map_cons]
          simp [hne, hx, j1]
    all_goals
      refine ⟨fun h => ?_, fun r a' m' h e => ?_⟩
      · simp only [firstAtom, hx] at h
        simp only [PF.getDirac, ih1 h]
      · simp only [firstAtom, hx] at h
        have hne : x ≠ r := by rintro rfl; rw [hx] at e; cases e
        obtain ⟨j1, j2⟩ := ih2 r a' m' h e
        simp only [PF.getDirac, Conv.bumpDirac, j1, j2, List.map_cons]
        simp [hne, hx]

theorem once_grow {h : Heap K} {L r : ℕ} {a m' m : K} (ho : Once h L) (e : h.segs r = .dirac a m') : Once (h.grow r m) L := by
  unfold Once at *
  rw [segs_grow e]
  have : (List.filter (fun x => (update h.segs r (Seg.dirac a (m' + m)) x).isDirac) (h.lists L)) =
      List.filter (fun x => (h.segs x).isDirac) (h.lists L) := by
    refine List.filter_congr fun x _ => ?_
    by_cases hx : x = r
    · subst hx; simp [e, Seg.isDirac]
    · simp [hx]
  simp only [this]; exact ho

theorem addDiracs_spec (eps : K) {L : ℕ} : ∀ {rs : List ℕ} {h : Heap K}, (∀ x ∈ h.lists L, x < h.next) → (∀ x ∈ rs, x < h.next) →
    (rs.filter fun x => (h.segs x).isDirac).Nodup → Once h L → (∀ x ∈ rs, (h.segs x).isDirac = true → x ∉ h.lists L) →
    (Conv.addDiracs eps (h.content L) (rs.map h.segs) = none → h.addDiracs eps L rs = none) ∧
    ∀ l, Conv.addDiracs eps (h.content L) (rs.map h.segs) = some l →
      ∃ h', h.addDiracs eps L rs = some h' ∧ h'.content L = l ∧ Once h' L ∧ Changed h h' L fun x => x ∈ rs ∧ (h.segs x).isDirac = true
  | [], h, _, _, _, ho, _ =>
    ⟨fun h1 => (by cases h1), fun l hl => ⟨h, rfl, Option.some.inj hl, ho, Changed.refl _ _ _⟩⟩
  | r :: rs, h, hb, hlt, hnd, ho, hr => by
    have hlt' : ∀ x ∈ rs, x < h.next := fun x hx => hlt x (by simp [hx])
    have hr' : ∀ x ∈ rs, (h.segs x).isDirac = true → x ∉ h.lists L := fun x hx => hr x (by simp [hx])
    rcases e : h.segs r with ⟨p, u, v, f⟩ | ⟨u, v, c⟩ | ⟨v, f⟩ | ⟨u, f⟩ | ⟨u, w⟩
    case dirac =>
      have hdr : (h.segs r).isDirac = true := by rw [e]; rfl
      rw [List.filter_cons, if_pos hdr, List.nodup_cons] at hnd
      have hrs : r ∉ rs := fun hx => hnd.1 (List.mem_filter.2 ⟨hx, hdr⟩)
      have cont : ∀ h' : Heap K, Once h' L → Changed h h' L (· = r) →
          (Conv.addDiracs eps (h'.content L) (rs.map h.segs) = none → h'.addDiracs eps L rs = none) ∧
          ∀ l, Conv.addDiracs eps (h'.content L) (rs.map h.segs) = some l →
            ∃ h'', h'.addDiracs eps L rs = some h'' ∧ h''.content L = l ∧ Once h'' L ∧
              Changed h h'' L fun x => x ∈ r :: rs ∧ (h.segs x).isDirac = true := by
        intro h' ho' hc
        have q1 : ∀ x ∈ rs, x < h'.next := fun x hx => (hlt' x hx).trans_le hc.next
        have q2 : ∀ x ∈ rs, (h'.segs x).isDirac = true → x ∉ h'.lists L := by
          intro x hx hd hm
          rw [hc.kind x (hlt' x hx)] at hd
          rcases hc.refs x hm with h1 | h1 | h1
          · exact hr' x hx hd h1
          · exact hrs (h1 ▸ hx)
          · exact absurd (hlt' x hx) (by omega)
        have q3 : rs.map h'.segs = rs.map h.segs := List.map_congr_left fun x hx =>
          hc.segs x (hlt' x hx) fun hd => ⟨hr' x hx hd, fun h1 => hrs (h1 ▸ hx)⟩
        have hb' : ∀ x ∈ h'.lists L, x < h'.next := fun x hx => hc.bound x hx hb (by rintro _ rfl; exact hlt _ (by simp))
        have q4 : (rs.filter fun x => (h'.segs x).isDirac).Nodup := by
          rw [List.filter_congr fun x hx => hc.kind x (hlt' x hx)]; exact hnd.2
        obtain ⟨i1, i2⟩ := addDiracs_spec eps (L := L) hb' q1 q4 ho' q2
        rw [q3] at i1 i2
        refine ⟨i1, fun l hl => ?_⟩
        obtain ⟨h'', j1, j2, j3, j4⟩ := i2 l hl
        refine ⟨h'', j1, j2, j3, Changed.trans hb (fun x hx => hlt x hx.1) (hc.mono ?_) (j4.mono ?_)⟩
        · rintro x rfl; exact ⟨by simp, hdr⟩
        · rintro x ⟨hx, hd⟩
          exact ⟨by simp [hx], by rw [← hc.kind x (hlt' x hx)]; exact hd⟩
      obtain ⟨b1, b2⟩ := firstAtom_bump (segs := h.segs) u w ho
      rcases ef : firstAtom (fun a' => a' = u) h.segs (h.lists L) with _ | r'
      · have e1 : PF.getDirac u (h.content L) = none := b1 ef
        have e2 : Conv.addDiracs eps (h.content L) (List.map h.segs (r :: rs)) =
            (PF.addSegment eps (h.content L) (h.segs r)).bind fun l' => Conv.addDiracs eps l' (rs.map h.segs) := by
          rw [List.map_cons, e, Conv.addDiracs, if_pos (by rw [e1]; rfl)]
        have e3 : h.addDiracs eps L (r :: rs) = (h.addSegment eps L r).bind fun h' => h'.addDiracs eps L rs := by
          simp only [Heap.addDiracs, e, ef]
        rw [e2, e3]
        obtain ⟨s1, s2⟩ := addSegment_spec (eps := eps) (new := (· = r)) hb rfl ho (hr r (by simp))
        rcases ea : PF.addSegment eps (h.content L) (h.segs r) with _ | l1
        · rw [s1 ea]
          exact ⟨fun _ => rfl, fun l hl => by cases hl⟩
        · obtain ⟨h', f1, f2, f3, f4⟩ := s2 l1 ea
          rw [f1, Option.bind_some, Option.bind_some, ← f2]
          exact cont h' f3 f4
      · obtain ⟨hm, a', m', e'⟩ := firstAtom_some ef
        obtain ⟨c1, c2⟩ := b2 r' a' m' ef e'
        have e2 : Conv.addDiracs eps (h.content L) (List.map h.segs (r :: rs)) =
            Conv.addDiracs eps ((h.grow r' w).content L) (rs.map h.segs) := by
          rw [List.map_cons, e, Conv.addDiracs, if_neg (by rw [Heap.content, c1]; simp), Heap.content, c2, segs_grow e']
          rfl
        have e3 : h.addDiracs eps L (r :: rs) = (h.grow r' w).addDiracs eps L rs := by
          simp only [Heap.addDiracs, e, ef]
        rw [e2, e3]
        exact cont _ (once_grow ho e') (changed_grow hm ⟨a', m', e'⟩ w)
    all_goals
      have hdr : (h.segs r).isDirac = false := by rw [e]; rfl
      rw [List.filter_cons, if_neg (by rw [hdr]; simp)] at hnd
      obtain ⟨i1, i2⟩ := addDiracs_spec eps (L := L) hb hlt' hnd ho hr'
      have e3 : h.addDiracs eps L (r :: rs) = h.addDiracs eps L rs := by simp only [Heap.addDiracs, e]
      rw [List.map_cons, e, Conv.addDiracs, e3]
      · refine ⟨i1, fun l hl => ?_⟩
        obtain ⟨h'', j1, j2, j3, j4⟩ := i2 l hl
        exact ⟨h'', j1, j2, j3, j4.mono fun x hx => ⟨by simp [hx.1], hx.2⟩⟩
      · intro a m h1; cases h1

end Alias
end Pacal
