import Verif.Alias.LemLoop

/-! Helper lemmas for C96: histories of actions. -/

namespace Pacal
namespace Alias
variable {K : Type*} [Field K] [LinearOrder K]
open Function

/-- invariant of the heap; `names` are the addresses of the pieces that were created as `segs` -/
structure Sound (h : Heap K) (names : List ℕ) (segs : List (Seg K)) : Prop where
  refs : ∀ L, ∀ r ∈ h.lists L, r < h.next
  once : ∀ L, Once h L
  top : 0 < h.top
  fresh : ∀ L, h.top ≤ L → h.lists L = []
  lt : ∀ r ∈ names, r < h.next
  nodup : names.Nodup
  len : names.length = segs.length
  kind : ∀ (i r : ℕ) (s : Seg K), names[i]? = some r → segs[i]? = some s → (h.segs r).isDirac = s.isDirac
  vals : ∀ (i r : ℕ) (s : Seg K), names[i]? = some r → segs[i]? = some s → (s.isDirac = true → ∀ L, r ∉ h.lists L) → h.segs r = s

theorem Sound.changed {h h' : Heap K} {names : List ℕ} {segs : List (Seg K)} {L : ℕ} {new : ℕ → Prop} (hs : Sound h names segs)
    (hL : L < h.top) (hc : Changed h h' L new) (hn : ∀ x, new x → x < h.next) (ho : Once h' L) : Sound h' names segs := by
  refine ⟨fun L' r hr => ?_, fun L' => ?_, by rw [hc.top]; exact hs.top,
    fun L' h1 => by rw [hc.top] at h1; rw [hc.lists L' (by omega)]; exact hs.fresh L' h1, fun r hr => (hs.lt r hr).trans_le hc.next, hs.nodup, hs.len,
    fun i r s h1 h2 => ?_, fun i r s h1 h2 h3 => ?_⟩
  · by_cases e : L' = L
    · subst e; exact hc.bound r hr (hs.refs L') hn
    · rw [hc.lists L' e] at hr
      exact (hs.refs L' r hr).trans_le hc.next
  · by_cases e : L' = L
    · subst e; exact ho
    · unfold Once
      rw [hc.lists L' e, List.filter_congr fun x hx => hc.kind x (hs.refs L' x hx)]
      exact hs.once L'
  · rw [hc.kind r (hs.lt r (List.mem_of_getElem? h1))]; exact hs.kind i r s h1 h2
  · have hk := hs.kind i r s h1 h2
    rw [hc.kept r (hs.lt r (List.mem_of_getElem? h1)) fun hd => h3 (hk ▸ hd) L]
    refine hs.vals i r s h1 h2 fun hd L' hm => ?_
    by_cases e : L' = L
    · subst e; exact h3 hd L' (hc.sub r hm)
    · exact h3 hd L' (by rw [hc.lists L' e]; exact hm)

theorem Sound.alloc {h : Heap K} {names : List ℕ} {segs : List (Seg K)} (hs : Sound h names segs) (s : Seg K) :
    Sound (h.alloc s) names segs := by
  have hu : ∀ r < h.next, (h.alloc s).segs r = h.segs r := fun r hr => by simp [Heap.alloc, hr.ne]
  refine ⟨fun L r hr => (hs.refs L r hr).trans (Nat.lt_succ_self _), fun L => ?_, hs.top, hs.fresh,
    fun r hr => (hs.lt r hr).trans (Nat.lt_succ_self _), hs.nodup, hs.len, fun i r t h1 h2 => ?_, fun i r t h1 h2 h3 => ?_⟩
  · unfold Once
    rw [show (h.alloc s).lists L = h.lists L from rfl,
      List.filter_congr fun x hx => by rw [hu x (hs.refs L x hx)]]
    exact hs.once L
  · rw [hu r (hs.lt r (List.mem_of_getElem? h1))]; exact hs.kind i r t h1 h2
  · rw [hu r (hs.lt r (List.mem_of_getElem? h1))]; exact hs.vals i r t h1 h2 h3

theorem Sound.piece {h : Heap K} {names : List ℕ} {segs : List (Seg K)} (hs : Sound h names segs) (s : Seg K) :
    Sound (h.alloc s) (names ++ [h.next]) (segs ++ [s]) := by
  have ha := hs.alloc s
  have hlen := hs.len
  refine ⟨ha.refs, ha.once, ha.top, ha.fresh, fun r hr => ?_, ?_, by simp [hs.len], ?_, ?_⟩
  · rcases List.mem_append.1 hr with h1 | h1
    · exact ha.lt r h1
    · rw [List.mem_singleton.1 h1]; exact Nat.lt_succ_self _
  · refine List.nodup_append.2 ⟨hs.nodup, by simp, fun r hr x hx e => ?_⟩
    rw [List.mem_singleton.1 hx] at e
    exact (hs.lt r hr).ne e
  all_goals
    intro i r t h1 h2
    rcases lt_trichotomy i names.length with hi | hi | hi
    · rw [List.getElem?_append_left hi] at h1
      rw [List.getElem?_append_left (by omega)] at h2
      first | exact ha.kind i r t h1 h2 | exact ha.vals i r t h1 h2
    · rw [List.getElem?_append_right (by omega)] at h1 h2
      rw [show i - names.length = 0 by omega] at h1
      rw [show i - segs.length = 0 by omega] at h2
      simp only [List.getElem?_cons_zero, Option.some.injEq] at h1 h2
      subst h1 h2
      simp [Heap.alloc]
    · rw [List.getElem?_eq_none (by simp; omega)] at h1; cases h1

theorem Sound.newList {h : Heap K} {names : List ℕ} {segs : List (Seg K)} (hs : Sound h names segs) :
    Sound h.newList names segs := by
  have e : h.newList.lists = h.lists := by
    unfold Heap.newList
    rw [← hs.fresh h.top (le_refl _)]; exact update_eq_self _ _
  have h1 : ∀ L, h.newList.lists L = h.lists L := fun L => by rw [e]
  refine ⟨fun L r hr => hs.refs L r (h1 L ▸ hr), fun L => ?_, Nat.succ_pos _, fun L hL => ?_, hs.lt, hs.nodup, hs.len, hs.kind,
    fun i r s h2 h3 h4 => hs.vals i r s h2 h3 fun hd L => h1 L ▸ h4 hd L⟩
  · unfold Once; rw [h1]; exact hs.once L
  · rw [h1]; exact hs.fresh L (Nat.le_of_succ_le hL)

theorem content_newList {h : Heap K} {names : List ℕ} {segs : List (Seg K)} (hs : Sound h names segs) (L : ℕ) :
    h.newList.content L = h.content L := by
  have e : h.newList.lists = h.lists := by
    unfold Heap.newList
    rw [← hs.fresh h.top (le_refl _)]; exact update_eq_self _ _
  unfold Heap.content; rw [e]; rfl

theorem allocAll_spec (names : List ℕ) (segs : List (Seg K)) : ∀ (ss : List (Seg K)) {h : Heap K}, Sound h names segs →
    Sound (h.allocAll ss) names segs ∧ (h.allocAll ss).lists = h.lists ∧ (h.allocAll ss).top = h.top ∧
    (h.allocAll ss).next = h.next + ss.length ∧ (∀ r < h.next, (h.allocAll ss).segs r = h.segs r) ∧
    (List.range' h.next ss.length).map (h.allocAll ss).segs = ss
  | [], h, hs => ⟨hs, rfl, rfl, rfl, fun _ _ => rfl, rfl⟩
  | s :: ss, h, hs => by
    obtain ⟨i1, i2, i3, i4, i5, i6⟩ := allocAll_spec names segs ss (hs.alloc s)
    rw [Heap.allocAll]
    refine ⟨i1, i2, i3, ?_, fun r hr => ?_, ?_⟩
    · rw [i4]; simp only [Heap.alloc, List.length_cons]; omega
    · rw [i5 r (hr.trans (Nat.lt_succ_self _))]; simp [Heap.alloc, hr.ne]
    · rw [List.length_cons, List.range'_succ, List.map_cons, i5 h.next (Nat.lt_succ_self _)]
      refine congrArg₂ _ (by simp [Heap.alloc]) i6

/-- the lists other than the changed one keep their pieces -/
theorem content_changed {h h' : Heap K} {L L' : ℕ} {new : ℕ → Prop} (hc : Changed h h' L new) (hb : ∀ x ∈ h.lists L', x < h.next)
    (hL : L' ≠ L) (hx : ∀ r ∈ h.lists L', (h.segs r).isDirac = true → r ∉ h.lists L ∧ ¬ new r) : h'.content L' = h.content L' := by
  unfold Heap.content
  rw [hc.lists L' hL]
  exact List.map_congr_left fun r hr => hc.segs r (hb r hr) (hx r hr)

theorem join_append {α : Type*} (l : List (Option α)) (x : Option α) (f : ℕ) :
    ((l ++ [x])[f]?).join = if f = l.length then x else (l[f]?).join := by
  rcases lt_trichotomy f l.length with h | h | h
  · rw [List.getElem?_append_left h, if_neg h.ne]
  · subst h; simp
  · rw [if_neg h.ne', List.getElem?_eq_none (by simp; omega), List.getElem?_eq_none (by omega)]

theorem join_set {α : Type*} (l : List (Option α)) (x : Option α) (g f : ℕ) :
    ((l.set g x)[f]?).join = if f = g ∧ g < l.length then x else (l[f]?).join := by
  rw [List.getElem?_set]
  by_cases h : g = f
  · subst h
    by_cases h2 : g < l.length
    · simp [h2]
    · simp [h2]
  · simp [h, Ne.symm h]

/-- the state agrees with the values -/
structure Good (st : State K) (v : Values K) : Prop where
  sound : Sound st.heap st.names v.segs
  top : ∀ f L, st.list f = some L → L < st.heap.top
  len : st.funs.length = v.funs.length
  pieces : ∀ f, st.pieces f = v.get f

theorem good_start : Good (State.start : State K) Values.start := by
  refine ⟨⟨fun L r hr => by simp [State.start, Heap.start] at hr, fun L => ?_, Nat.one_pos, fun L _ => rfl, by simp [State.start],
    by simp [State.start], rfl, by simp [State.start], by simp [State.start]⟩, fun f L h => by simp [State.start, State.list] at h, rfl,
    fun f => by simp [State.start, State.pieces, State.list, Values.get, Values.start]⟩
  simp [Once, State.start, Heap.start]

/-- a new function is added to the state; the lists in use keep their pieces -/
theorem good_new {st : State K} {v : Values K} (hg : Good st v) {h' : Heap K} {x : Option ℕ} {y : Option (PF K)}
    (hs : Sound h' st.names v.segs) (ht : st.heap.top ≤ h'.top) (hx : ∀ L, x = some L → L < h'.top)
    (hk : ∀ f L, st.list f = some L → h'.content L = st.heap.content L) (hy : x.map h'.content = y) :
    Good ⟨h', st.names, st.funs ++ [x]⟩ ⟨v.segs, v.funs ++ [y]⟩ := by
  refine ⟨hs, fun f L hf => ?_, by simp [hg.len], fun f => ?_⟩
  · unfold State.list at hf
    rw [join_append] at hf
    split_ifs at hf with h1
    · exact hx L hf
    · exact (hg.top f L hf).trans_le ht
  · have hp := hg.pieces f
    unfold State.pieces State.list Values.get at *
    rw [join_append, join_append, hg.len]
    split_ifs with h1
    · exact hy
    · rw [← hp]
      rcases e : (st.funs[f]?).join with _ | L
      · rfl
      · exact congrArg some (hk f L e)

theorem pieces_list {st : State K} {v : Values K} (hg : Good st v) (f : ℕ) : v.get f = (st.list f).map st.heap.content :=
  (hg.pieces f).symm

theorem good_piece {st : State K} {v : Values K} (hg : Good st v) (s : Seg K) (eps : K) :
    Good (step eps st (.piece s)) (ideal eps v (.piece s)) := by
  refine ⟨hg.sound.piece s, hg.top, hg.len, fun f => ?_⟩
  have hp := hg.pieces f
  unfold State.pieces at *
  rw [show (step eps st (.piece s)).list f = st.list f from rfl, show (ideal eps v (.piece s)).get f = v.get f from rfl, ← hp]
  rcases e : st.list f with _ | L
  · rfl
  · exact congrArg some (content_alloc (hg.sound.refs L) s)

theorem good_fromList {st : State K} {v : Values K} (hg : Good st v) (ss : List ℕ) (eps : K) :
    Good (step eps st (.fromList ss)) (ideal eps v (.fromList ss)) := by
  by_cases h : ss = []
  · simp only [step, ideal, if_pos h]
    refine good_new hg hg.sound.newList (Nat.le_succ _) (fun L e => ?_) (fun f L _ => content_newList hg.sound L) ?_
    · cases e; exact Nat.lt_succ_self _
    · simp [Heap.content, Heap.newList]
  · simp only [step, ideal, if_neg h]
    exact good_new hg hg.sound (le_refl _) (fun L e => by cases e) (fun _ _ _ => rfl) rfl

theorem good_blank {st : State K} {v : Values K} (hg : Good st v) (eps : K) (h0 : st.heap.lists 0 = []) :
    Good (step eps st .blank) (ideal eps v .blank) :=
  good_new hg hg.sound (le_refl _) (fun L e => by cases e; exact hg.sound.top) (fun _ _ _ => rfl) (by simp [Heap.content, h0])

theorem names_some {st : State K} {v : Values K} (hg : Good st v) (s : ℕ) :
    (∃ r t, st.names[s]? = some r ∧ v.segs[s]? = some t) ∨ (st.names[s]? = none ∧ v.segs[s]? = none) := by
  have := hg.sound.len
  by_cases h : s < st.names.length
  · exact .inl ⟨_, _, List.getElem?_eq_getElem h, List.getElem?_eq_getElem (by omega)⟩
  · exact .inr ⟨List.getElem?_eq_none (by omega), List.getElem?_eq_none (by omega)⟩

theorem seg_eq {st : State K} {v : Values K} (hg : Good st v) {s r : ℕ} {t : Seg K} (h1 : st.names[s]? = some r) (h2 : v.segs[s]? = some t)
    (hu : Unused st s) : st.heap.segs r = t :=
  hg.sound.vals s r t h1 h2 fun hd => hu r h1 (by rw [hg.sound.kind s r t h1 h2]; exact hd)

theorem list_lt {st : State K} {f L : ℕ} (h : st.list f = some L) : f < st.funs.length := by
  by_contra hn
  unfold State.list at h
  rw [List.getElem?_eq_none (by omega)] at h; cases h

theorem good_add {st : State K} {v : Values K} (hg : Good st v) (eps : K) {f s : ℕ} (ha : Alone st f) (hu : Unused st s) :
    Good (step eps st (.add f s)) (ideal eps v (.add f s)) := by
  have hv := pieces_list hg f
  rcases ef : st.list f with _ | L
  · rw [ef] at hv
    simp only [step, ideal, ef, hv, Option.map_none]; exact hg
  rw [ef, Option.map_some] at hv
  rcases names_some hg s with ⟨r, t, e1, e2⟩ | ⟨e1, e2⟩
  swap
  · simp only [step, ideal, ef, hv, e1, e2]; exact hg
  have et := seg_eq hg e1 e2 hu
  have hrn : r < st.heap.next := hg.sound.lt r (List.mem_of_getElem? e1)
  obtain ⟨s1, s2⟩ := addSegment_spec (eps := eps) (new := (· = r)) (hg.sound.refs L) rfl (hg.sound.once L)
    (fun hd => hu r e1 hd L)
  have hlen : f < v.funs.length := by rw [← hg.len]; exact list_lt ef
  rw [et] at s1 s2
  rcases ea : PF.addSegment eps (st.heap.content L) t with _ | l
  · simp only [step, ideal, ef, hv, e1, e2, s1 ea, ea, Option.getD_none]
    refine ⟨hg.sound, hg.top, by simp [hg.len], fun g => ?_⟩
    unfold Values.get
    rw [join_set, hg.pieces g]
    split_ifs with h
    · rw [h.1, hv]
    · rfl
  · obtain ⟨h', f1, f2, f3, f4⟩ := s2 l ea
    simp only [step, ideal, ef, hv, e1, e2, f1, ea, Option.getD_some]
    refine ⟨hg.sound.changed (hg.top f L ef) f4 (by rintro _ rfl; exact hrn) f3, fun g L' hg' => ?_, by simp [hg.len], fun g => ?_⟩
    · rw [show (State.mk h' st.names st.funs).heap.top = st.heap.top from f4.top]; exact hg.top g L' hg'
    · unfold Values.get
      rw [join_set]
      have hp := hg.pieces g
      unfold State.pieces at *
      rw [show (State.mk h' st.names st.funs).list g = st.list g from rfl]
      by_cases hgf : g = f
      · subst hgf
        rw [if_pos ⟨rfl, hlen⟩, ef]; exact congrArg some f2
      · rw [if_neg fun h => hgf h.1]
        refine Eq.trans ?_ hp
        rcases eg : st.list g with _ | L'
        · rfl
        · obtain ⟨a1, a2⟩ := ha L ef g L' hgf eg
          refine congrArg some (content_changed f4 (hg.sound.refs L') a1 fun x hx hd => ⟨fun hm => a2 x hm hd hx, ?_⟩)
          rintro rfl
          exact hu x e1 hd L' hx

theorem good_build {st : State K} {v : Values K} (hg : Good st v) (eps : K) (ss : List (Seg K)) :
    Good (st.build eps ss) ⟨v.segs, v.funs ++ [PF.addAll eps [] ss]⟩ := by
  obtain ⟨a1, a2, a3, a4, a5, a6⟩ := allocAll_spec st.names v.segs ss hg.sound
  have hn := a1.newList
  have hcn : (st.heap.allocAll ss).newList.lists (st.heap.allocAll ss).top = [] := by simp [Heap.newList]
  have hcon : (st.heap.allocAll ss).newList.content (st.heap.allocAll ss).top = [] := by simp [Heap.content, hcn]
  have hnext : (st.heap.allocAll ss).newList.next = st.heap.next + ss.length := a4
  obtain ⟨u1, u2, u3, u4⟩ := addUntil_spec eps (L := (st.heap.allocAll ss).top) (rs := List.range' st.heap.next ss.length)
    (h := (st.heap.allocAll ss).newList) (hn.refs _) (fun x hx => by rw [hnext]; exact (List.mem_range'_1.1 hx).2)
    List.nodup_range' (hn.once _) (fun x hx _ => by rw [hcn]; simp)
  rw [hcon, show List.map (st.heap.allocAll ss).newList.segs (List.range' st.heap.next ss.length) = ss from a6] at u2
  have hsnd := hn.changed (Nat.lt_succ_self _) u4 (fun x hx => by rw [hnext]; exact (List.mem_range'_1.1 hx).2) u3
  unfold State.build
  refine good_new hg hsnd ?_ (fun L e => ?_) (fun f L hf => ?_) ?_
  · rw [u4.top, Heap.newList, a3]; exact Nat.le_succ _
  · split_ifs at e
    · cases e
      rw [u4.top, Heap.newList]; exact Nat.lt_succ_self _
  · have hL : L < (st.heap.allocAll ss).top := by rw [a3]; exact hg.top f L hf
    rw [content_changed u4 (hn.refs L) hL.ne, content_newList a1]
    · unfold Heap.content
      rw [a2]
      exact List.map_congr_left fun r hr => a5 r (hg.sound.refs L r hr)
    · intro r hr _
      refine ⟨by rw [hcn]; simp, fun hx => ?_⟩
      rw [show (st.heap.allocAll ss).newList.lists L = st.heap.lists L by simp [Heap.newList, hL.ne, a2]] at hr
      exact absurd (hg.sound.refs L r hr) (not_lt.2 (List.mem_range'_1.1 hx).1)
  · rw [← u2]
    split_ifs <;> rfl

theorem good_compute {st : State K} {v : Values K} (hg : Good st v) (eps : K) (F : List (PF K) → List (Seg K)) (fs : List ℕ) :
    Good (step eps st (.compute F fs)) (ideal eps v (.compute F fs)) := by
  have e : fs.filterMap st.pieces = fs.filterMap v.get := by rw [show st.pieces = v.get from funext hg.pieces]
  have := good_build hg eps (F (fs.filterMap st.pieces))
  simp only [step, ideal]
  rw [← e]; exact this

theorem good_forget {st : State K} {v : Values K} (hg : Good st v) (eps : K) (f : ℕ) :
    Good (step eps st (.forget f)) (ideal eps v (.forget f)) := by
  refine ⟨hg.sound, fun g L hgL => ?_, by simp [step, ideal, hg.len], fun g => ?_⟩
  · unfold State.list at hgL
    rw [show (step eps st (.forget f)).funs = st.funs.set f none from rfl, join_set] at hgL
    split_ifs at hgL
    exact hg.top g L hgL
  · have hp := hg.pieces g
    unfold State.pieces State.list Values.get at *
    rw [show (step eps st (.forget f)).funs = st.funs.set f none from rfl, show (ideal eps v (.forget f)).funs = v.funs.set f none from rfl,
      join_set, join_set, ← hg.len]
    split_ifs
    · rfl
    · exact hp

theorem good_pdistr {st : State K} {v : Values K} (hg : Good st v) (eps : K) {ss : List ℕ} (h0 : st.heap.lists 0 = [])
    (hf : ∀ f, st.list f ≠ some 0) (hnd : ss.Nodup) (hu : ∀ s ∈ ss, Unused st s) :
    Good (step eps st (.pdistr ss)) (ideal eps v (.pdistr ss)) := by
  have hmem : ∀ x ∈ ss.filterMap fun s => st.names[s]?, ∃ s ∈ ss, st.names[s]? = some x := fun x hx => List.mem_filterMap.1 hx
  have hlt : ∀ x ∈ ss.filterMap fun s => st.names[s]?, x < st.heap.next := by
    intro x hx
    obtain ⟨s, _, e⟩ := hmem x hx
    exact hg.sound.lt x (List.mem_of_getElem? e)
  have hnod : (ss.filterMap fun s => st.names[s]?).Nodup := by
    refine List.Nodup.filterMap (fun a a' b h1 h2 => ?_) hnd
    obtain ⟨i1, j1⟩ := List.getElem?_eq_some_iff.1 h1
    obtain ⟨i2, j2⟩ := List.getElem?_eq_some_iff.1 h2
    exact (hg.sound.nodup.getElem_inj_iff).1 (j1.trans j2.symm)
  have hmap : (ss.filterMap fun s => st.names[s]?).map st.heap.segs = ss.filterMap fun s => v.segs[s]? := by
    clear hmem hlt hnod hnd
    induction ss with
    | nil => rfl
    | cons s ss ih =>
      have ih := ih fun x hx => hu x (by simp [hx])
      rcases names_some hg s with ⟨r, t, e1, e2⟩ | ⟨e1, e2⟩
      · rw [List.filterMap_cons_some e1, List.filterMap_cons_some e2, List.map_cons, ih, seg_eq hg e1 e2 (hu s (by simp))]
      · rw [List.filterMap_cons_none e1, List.filterMap_cons_none e2, ih]
  obtain ⟨u1, u2, u3, u4⟩ := addUntil_spec eps (L := 0) (h := st.heap) (hg.sound.refs 0) hlt hnod (hg.sound.once 0)
    (fun x _ _ => by rw [h0]; simp)
  have hsnd := hg.sound.changed hg.sound.top u4 hlt u3
  simp only [step, ideal]
  refine good_new hg hsnd (by rw [u4.top]) (fun L e => ?_) (fun f L hfL => ?_) ?_
  · cases e; rw [u4.top]; exact hg.sound.top
  · refine content_changed u4 (hg.sound.refs L) (fun e => hf f (by rw [hfL, e])) fun r hr hd => ⟨by rw [h0]; simp, fun hx => ?_⟩
    obtain ⟨s, hs, e⟩ := hmem r hx
    exact hu s hs r e hd L hr
  · rw [Option.map_some, u1, hmap, Heap.content, h0]; rfl

theorem good_addDiracs {st : State K} {v : Values K} (hg : Good st v) (eps : K) {f g : ℕ} (hfg : f ≠ g) (hf : Alone st f)
    (hgA : Alone st g) : Good (step eps st (.addDiracs f g)) (ideal eps v (.addDiracs f g)) := by
  have hvf := pieces_list hg f
  have hvg := pieces_list hg g
  rcases ef : st.list f with _ | L
  · rw [ef] at hvf
    simp only [step, ideal, ef, hvf, Option.map_none]; exact hg
  rw [ef, Option.map_some] at hvf
  rcases eg : st.list g with _ | L'
  · rw [eg] at hvg
    simp only [step, ideal, ef, eg, hvf, hvg, Option.map_none]; exact hg
  rw [eg, Option.map_some] at hvg
  obtain ⟨b1, b2⟩ := hf L ef g L' hfg.symm eg
  obtain ⟨s1, s2⟩ := addDiracs_spec eps (L := L) (rs := st.heap.lists L') (hg.sound.refs L) (hg.sound.refs L') (hg.sound.once L')
    (hg.sound.once L) (fun x hx hd hm => b2 x hm hd hx)
  have hlf : f < v.funs.length := by rw [← hg.len]; exact list_lt ef
  have hlg : g < v.funs.length := by rw [← hg.len]; exact list_lt eg
  rcases ea : Conv.addDiracs eps (st.heap.content L) (st.heap.content L') with _ | l
  · have e1 := s1 ea
    simp only [step, ideal, ef, eg, hvf, hvg, e1, ea]
    refine ⟨hg.sound, fun x L'' hx => ?_, by simp [hg.len], fun x => ?_⟩
    · unfold State.list at hx
      simp only [join_set] at hx
      split_ifs at hx
      exact hg.top x L'' hx
    · have hp := hg.pieces x
      unfold State.pieces State.list Values.get at *
      simp only [join_set, List.length_set, hg.len]
      split_ifs
      · rfl
      · rfl
      · exact hp
  · obtain ⟨h', f1, f2, f3, f4⟩ := s2 l ea
    simp only [step, ideal, ef, eg, hvf, hvg, f1, ea]
    refine ⟨hg.sound.changed (hg.top f L ef) f4 (fun x hx => hg.sound.refs L' x hx.1) f3, fun x L'' hx => ?_, by simp [hg.len], fun x => ?_⟩
    · unfold State.list at hx
      simp only [join_set] at hx
      split_ifs at hx
      rw [show (State.mk h' st.names (st.funs.set g none)).heap.top = st.heap.top from f4.top]; exact hg.top x L'' hx
    · have hp := hg.pieces x
      have hef := ef
      unfold State.pieces State.list Values.get at *
      simp only [join_set, List.length_set, hg.len]
      by_cases hxg : x = g
      · rw [if_pos ⟨hxg, hlg⟩, if_pos ⟨hxg, hlg⟩]; rfl
      · rw [if_neg fun h => hxg h.1, if_neg fun h => hxg h.1]
        by_cases hxf : x = f
        · subst hxf
          rw [if_pos ⟨rfl, hlf⟩, hef]; exact congrArg some f2
        · rw [if_neg fun h => hxf h.1]
          refine Eq.trans ?_ hp
          rcases ex : (st.funs[x]?).join with _ | L''
          · rfl
          · obtain ⟨c1, c2⟩ := hf L ef x L'' hxf ex
            obtain ⟨d1, d2⟩ := hgA L' eg x L'' hxg ex
            exact congrArg some (content_changed f4 (hg.sound.refs L'') c1 fun r hr hd =>
              ⟨fun hm => c2 r hm hd hr, fun hm => d2 r hm.1 hd hr⟩)

theorem good_interpolated {st : State K} {v : Values K} (hg : Good st v) (eps : K) {I : Seg K → Seg K} {f : ℕ}
    (hd : ∀ l, st.pieces f = some l → l.diracs = []) : Good (step eps st (.interpolated I f)) (ideal eps v (.interpolated I f)) := by
  have hv := pieces_list hg f
  rcases ef : st.list f with _ | L
  · rw [ef] at hv
    simp only [step, ideal, ef, hv, Option.map_none, Option.bind_none]
    exact good_new hg hg.sound (le_refl _) (fun L e => by cases e) (fun _ _ _ => rfl) rfl
  · rw [ef, Option.map_some] at hv
    have hp : st.pieces f = some (st.heap.content L) := by rw [hg.pieces f, hv]
    have hno : ∀ r ∈ st.heap.lists L, (st.heap.segs r).isDirac = false := by
      intro r hr
      have := hd _ hp
      rw [PF.diracs, List.filter_eq_nil_iff] at this
      simpa using this (st.heap.segs r) (List.mem_map.2 ⟨r, hr, rfl⟩)
    have hz : List.zipWith (fun r i => if (st.heap.segs r).isDirac then r else i) (st.heap.lists L)
        (List.range' st.heap.next (st.heap.lists L).length) = List.range' st.heap.next (st.heap.lists L).length := by
      refine List.ext_getElem (by simp) fun i h1 h2 => ?_
      simp only [List.length_range'] at h2
      rw [List.getElem_zipWith, hno _ (List.getElem_mem h2)]; rfl
    have hm : (st.heap.content L).map (fun s => if s.isDirac then s else I s) = (st.heap.lists L).map fun r => I (st.heap.segs r) := by
      rw [Heap.content, List.map_map]
      exact List.map_congr_left fun r hr => by simp [hno r hr]
    have := good_build hg eps ((st.heap.lists L).map fun r => I (st.heap.segs r))
    simp only [State.build, List.length_map] at this
    simp only [step, ideal, ef, hv, Option.bind_some, hz, hm]
    exact this

/-- one action -/
theorem good_step {st : State K} {v : Values K} (hg : Good st v) (eps : K) {c : Cmd K} (ha : Apart st c) :
    Good (step eps st c) (ideal eps v c) := by
  cases c with
  | piece s => exact good_piece hg s eps
  | fromList ss => exact good_fromList hg ss eps
  | blank => exact good_blank hg eps ha
  | add f s => exact good_add hg eps ha.1 ha.2
  | addDiracs f g => exact good_addDiracs hg eps ha.1 ha.2.1 ha.2.2
  | interpolated I f => exact good_interpolated hg eps ha
  | compute F fs => exact good_compute hg eps F fs
  | pdistr ss => exact good_pdistr hg eps ha.1 ha.2.1 ha.2.2.1 ha.2.2.2
  | forget f => exact good_forget hg eps f

theorem good_run (eps : K) : ∀ {cs : List (Cmd K)} {st : State K} {v : Values K}, Good st v → AllApart eps st cs →
    Good (run eps st cs) (idealRun eps v cs)
  | [], _, _, hg, _ => hg
  | _ :: cs, _, _, hg, ha => good_run eps (cs := cs) (good_step hg eps ha.1) ha.2

end Alias
end Pacal
