import Verif.Alias.LemRun

/-! Helper lemmas for C96: in careful histories functions share nothing. -/

namespace Pacal
namespace Alias
variable {K : Type*} [Field K] [LinearOrder K]
open Function

/-- functions have lists of their own, lists share no pieces, and only pieces in `U` are in lists -/
structure Own (st : State K) (U : ℕ → Prop) : Prop where
  funs : ∀ f g L, st.list f = some L → st.list g = some L → f = g
  lists : ∀ L L', L ≠ L' → ∀ r ∈ st.heap.lists L, r ∉ st.heap.lists L'
  used : ∀ i r, st.names[i]? = some r → ∀ L, r ∈ st.heap.lists L → U i

theorem own_start (U : ℕ → Prop) : Own (State.start : State K) U :=
  ⟨fun f g L h => by simp [State.start, State.list] at h, fun L L' _ r hr => by simp [State.start, Heap.start] at hr,
    fun i r h => by simp [State.start] at h⟩

theorem Own.alone {st : State K} {U : ℕ → Prop} (ho : Own st U) (f : ℕ) : Alone st f := by
  intro L hf g L' hgf hg
  have hne : L' ≠ L := fun e => hgf (ho.funs g f L (e ▸ hg) hf)
  exact ⟨hne, fun r hr _ => ho.lists L L' hne.symm r hr⟩

theorem Own.unused {st : State K} {U : ℕ → Prop} (ho : Own st U) {s : ℕ} (hs : ¬ U s) : Unused st s :=
  fun r hr _ L hm => hs (ho.used s r hr L hm)

theorem build_heap {st : State K} {v : Values K} (hg : Good st v) (eps : K) (ss : List (Seg K)) :
    (∀ L, L ≠ st.heap.top → (st.build eps ss).heap.lists L = st.heap.lists L) ∧
    ∀ r ∈ (st.build eps ss).heap.lists st.heap.top, st.heap.next ≤ r := by
  obtain ⟨a1, a2, a3, a4, a5, a6⟩ := allocAll_spec st.names v.segs ss hg.sound
  have hn := a1.newList
  have hcn : (st.heap.allocAll ss).newList.lists (st.heap.allocAll ss).top = [] := by simp [Heap.newList]
  have hnext : (st.heap.allocAll ss).newList.next = st.heap.next + ss.length := a4
  obtain ⟨u1, u2, u3, u4⟩ := addUntil_spec eps (L := (st.heap.allocAll ss).top) (rs := List.range' st.heap.next ss.length)
    (h := (st.heap.allocAll ss).newList) (hn.refs _) (fun x hx => by rw [hnext]; exact (List.mem_range'_1.1 hx).2)
    List.nodup_range' (hn.once _) (fun x hx _ => by rw [hcn]; simp)
  unfold State.build
  refine ⟨fun L hL => ?_, fun r hr => ?_⟩
  · have hL' : L ≠ (st.heap.allocAll ss).top := by rw [a3]; exact hL
    rw [u4.lists L hL']
    simp [Heap.newList, hL', a2]
  · rw [← a3] at hr
    rcases u4.refs r hr with h1 | h1 | h1
    · rw [hcn] at h1; simp at h1
    · exact (List.mem_range'_1.1 h1).1
    · rw [hnext] at h1; omega

/-- a new function with a new list of new pieces -/
theorem own_new {st : State K} {v : Values K} {U : ℕ → Prop} (hg : Good st v) (ho : Own st U) {h' : Heap K} {x : Option ℕ}
    (hx : ∀ L, x = some L → L = st.heap.top) (h1 : ∀ L, L ≠ st.heap.top → h'.lists L = st.heap.lists L)
    (h2 : ∀ r ∈ h'.lists st.heap.top, st.heap.next ≤ r) : Own ⟨h', st.names, st.funs ++ [x]⟩ U := by
  have hold : ∀ L r, L ≠ st.heap.top → r ∈ h'.lists L → r < st.heap.next := fun L r hL hr => hg.sound.refs L r (h1 L hL ▸ hr)
  refine ⟨fun f g L hf hgL => ?_, fun L L' hne r hr hr' => ?_, fun i r hi L hr => ?_⟩
  · unfold State.list at hf hgL
    rw [join_append] at hf hgL
    split_ifs at hf hgL with a b b
    · rw [a, b]
    · exact absurd (hg.top g L hgL) (by rw [hx L hf]; exact lt_irrefl _)
    · exact absurd (hg.top f L hf) (by rw [hx L hgL]; exact lt_irrefl _)
    · exact ho.funs f g L hf hgL
  · by_cases a : L = st.heap.top
    · subst a
      exact absurd (hold L' r hne.symm hr') (not_lt.2 (h2 r hr))
    · by_cases b : L' = st.heap.top
      · subst b
        exact absurd (hold L r a hr) (not_lt.2 (h2 r hr'))
      · exact ho.lists L L' hne r (h1 L a ▸ hr) (h1 L' b ▸ hr')
  · by_cases a : L = st.heap.top
    · subst a
      exact absurd (hg.sound.lt r (List.mem_of_getElem? hi)) (not_lt.2 (h2 r hr))
    · exact ho.used i r hi L (h1 L a ▸ hr)

theorem own_add {st : State K} {v : Values K} {U : ℕ → Prop} (hg : Good st v) (ho : Own st U) (eps : K) {f s : ℕ} (hs : ¬ U s) :
    Own (step eps st (.add f s)) fun i => U i ∨ i = s := by
  have hweak : Own st fun i => U i ∨ i = s := ⟨ho.funs, ho.lists, fun i r h1 L h2 => .inl (ho.used i r h1 L h2)⟩
  rcases ef : st.list f with _ | L
  · simp only [step, ef]; exact hweak
  rcases er : st.names[s]? with _ | r
  · simp only [step, ef, er]; exact hweak
  rcases ea : st.heap.addSegment eps L r with _ | h'
  · simp only [step, ef, er, ea]; exact hweak
  simp only [step, ef, er, ea]
  have hu := ho.unused hs
  obtain ⟨s1, s2⟩ := addSegment_spec (eps := eps) (new := (· = r)) (hg.sound.refs L) rfl (hg.sound.once L) (fun hd => hu r er hd L)
  rcases ev : PF.addSegment eps (st.heap.content L) (st.heap.segs r) with _ | l
  · rw [s1 ev] at ea; cases ea
  obtain ⟨h'', f1, -, -, f4⟩ := s2 l ev
  obtain rfl : h'' = h' := Option.some.inj (f1.symm.trans ea)
  have key : ∀ L' x, L' ≠ L → x ∈ st.heap.lists L' → x ∉ h''.lists L := by
    intro L' x hne hx hm
    rcases f4.refs x hm with h1 | h1 | h1
    · exact ho.lists L L' hne.symm x h1 hx
    · exact hs (ho.used s x (h1 ▸ er) L' hx)
    · exact absurd (hg.sound.refs L' x hx) (not_lt.2 h1)
  refine ⟨ho.funs, fun L1 L2 hne x h1 h2 => ?_, fun i x hi L1 hx => ?_⟩
  · by_cases a : L1 = L
    · subst a
      rw [f4.lists L2 hne.symm] at h2
      exact key L2 x hne.symm h2 h1
    · rw [f4.lists L1 a] at h1
      by_cases b : L2 = L
      · subst b; exact key L1 x a h1 h2
      · rw [f4.lists L2 b] at h2; exact ho.lists L1 L2 hne x h1 h2
  · by_cases a : L1 = L
    · subst a
      rcases f4.refs x hx with h1 | h1 | h1
      · exact .inl (ho.used i x hi L1 h1)
      · subst h1
        obtain ⟨i1, j1⟩ := List.getElem?_eq_some_iff.1 hi
        obtain ⟨i2, j2⟩ := List.getElem?_eq_some_iff.1 er
        exact .inr ((hg.sound.nodup.getElem_inj_iff).1 (j1.trans j2.symm))
      · exact absurd (hg.sound.lt x (List.mem_of_getElem? hi)) (not_lt.2 h1)
    · rw [f4.lists L1 a] at hx; exact .inl (ho.used i x hi L1 hx)

theorem careful_apart (eps : K) : ∀ {cs : List (Cmd K)} {st : State K} {v : Values K} {U : ℕ → Prop}, Good st v → Own st U →
    Careful cs → (∀ s ∈ added cs, ¬ U s) → AllApart eps st cs
  | [], _, _, _, _, _, _, _ => trivial
  | c :: cs, st, v, U, hg, ho, hc, hU => by
    have hrest : ∀ c' ∈ cs, _ := fun c' h' => hc.2 c' (by simp [h'])
    rcases hc.2 c (by simp) with ⟨s, rfl⟩ | ⟨ss, rfl⟩ | ⟨f, s, rfl⟩ | ⟨F, fs, rfl⟩ | ⟨f, rfl⟩
    · refine ⟨trivial, careful_apart eps (good_step hg eps (c := .piece s) trivial) (U := U) ?_ ⟨hc.1, hrest⟩ hU⟩
      refine ⟨ho.funs, ho.lists, fun i r hi L hr => ?_⟩
      rw [show (step eps st (.piece s)).names = st.names ++ [st.heap.next] from rfl] at hi
      rcases List.mem_append.1 (List.mem_of_getElem? hi) with h1 | h1
      · by_cases h2 : i < st.names.length
        · rw [List.getElem?_append_left h2] at hi; exact ho.used i r hi L hr
        · rw [List.getElem?_append_right (by omega)] at hi
          have := List.mem_singleton.1 (List.mem_of_getElem? hi)
          exact absurd (hg.sound.lt r h1) (by omega)
      · rw [List.mem_singleton.1 h1] at hr
        exact absurd (hg.sound.refs L _ hr) (lt_irrefl _)
    · refine ⟨trivial, careful_apart eps (good_step hg eps (c := .fromList ss) trivial) (U := U) ?_ ⟨hc.1, hrest⟩ hU⟩
      by_cases h : ss = []
      · simp only [step, if_pos h]
        refine own_new hg ho (fun L e => by cases e; rfl) (fun L hL => by simp [Heap.newList, hL]) fun r hr => ?_
        simp [Heap.newList] at hr
      · simp only [step, if_neg h]
        refine own_new hg ho (fun L e => by cases e) (fun _ _ => rfl) fun r hr => ?_
        rw [hg.sound.fresh _ (le_refl _)] at hr; simp at hr
    · have h1 : ¬ U s := hU s (by simp [added])
      have ha : Apart st (.add f s) := ⟨ho.alone f, ho.unused h1⟩
      have hnd : (s :: added cs).Nodup := hc.1
      refine ⟨ha, careful_apart eps (good_step hg eps ha) (own_add hg ho eps h1) ⟨(List.nodup_cons.1 hnd).2, hrest⟩ ?_⟩
      rintro x hx (h2 | rfl)
      · exact hU x (by simp [added, hx]) h2
      · exact (List.nodup_cons.1 hnd).1 hx
    · refine ⟨trivial, careful_apart eps (good_step hg eps (c := .compute F fs) trivial) (U := U) ?_ ⟨hc.1, hrest⟩ hU⟩
      obtain ⟨b1, b2⟩ := build_heap hg eps (F (fs.filterMap st.pieces))
      refine own_new hg ho (fun L e => ?_) b1 b2
      split_ifs at e
      obtain ⟨-, -, a3, -⟩ := allocAll_spec st.names v.segs (F (fs.filterMap st.pieces)) hg.sound
      rw [← Option.some.inj e, a3]
    · refine ⟨trivial, careful_apart eps (good_step hg eps (c := .forget f) trivial) (U := U) ?_ ⟨hc.1, hrest⟩ hU⟩
      refine ⟨fun g g' L h1 h2 => ?_, ho.lists, ho.used⟩
      unfold State.list at h1 h2
      rw [show (step eps st (.forget f)).funs = st.funs.set f none from rfl, join_set] at h1 h2
      split_ifs at h1 h2
      exact ho.funs g g' L h1 h2

theorem list_mem {st : State K} {f L : ℕ} (h : st.list f = some L) : (f, some L) ∈ (List.range st.funs.length).zip st.funs := by
  have h1 := list_lt h
  have h2 : st.funs[f]? = some (some L) := by
    unfold State.list at h
    rw [List.getElem?_eq_getElem h1, Option.join_some] at h
    rw [List.getElem?_eq_getElem h1, h]
  rw [List.mem_iff_getElem?]
  refine ⟨f, ?_⟩
  rw [List.getElem?_zip_eq_some]
  exact ⟨by simp [h1], h2⟩

/-- `Alone` as a finite check -/
theorem alone_of {st : State K} {f : ℕ}
    (h : ∀ p ∈ (List.range st.funs.length).zip st.funs, ∀ q ∈ (List.range st.funs.length).zip st.funs, ∀ L ∈ p.2, ∀ L' ∈ q.2,
      p.1 = f → q.1 ≠ f →
      L' ≠ L ∧ ∀ r ∈ st.heap.lists L, (st.heap.segs r).isDirac = true → r ∉ st.heap.lists L') : Alone st f :=
  fun L hL _ L' hg hL' => h _ (list_mem hL) _ (list_mem hL') L rfl L' rfl rfl hg

/-- `Unused` as a finite check -/
theorem unused_of {st : State K} {v : Values K} (hg : Good st v) {s : ℕ}
    (h : ∀ r ∈ st.names[s]?, (st.heap.segs r).isDirac = true → ∀ L < st.heap.top, r ∉ st.heap.lists L) : Unused st s := by
  intro r hr hd L
  by_cases hL : L < st.heap.top
  · exact h r hr hd L hL
  · rw [hg.sound.fresh L (by omega)]; simp

end Alias
end Pacal
