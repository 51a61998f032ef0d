import Verif.Cache.Spec
import Mathlib.Tactic.SplitIfs
import Mathlib.Order.Nat

/-! Lemmas on the kept representations. -/

namespace Pacal.Cache
variable {D R : Type} {W : ℕ → Init D} {o : Ops D} {v : ℕ → Attr → Except PyErr D}

/-- nothing that the density of `i` is computed from breaks off -/
def Good (W : ℕ → Init D) (i : ℕ) : Prop := ∀ j, Uses W i j → (W j).NoBreak

/-- what is kept of good objects is what the definition says -/
def Inv (W : ℕ → Init D) (v : ℕ → Attr → Except PyErr D) (s : State D) : Prop :=
  ∀ j, Good W j → ∀ a d, (s j).get a = some d → v j a = .ok d

theorem good_self {i : ℕ} (h : Good W i) : (W i).NoBreak := h i .refl

theorem good_parent {i p : ℕ} (h : Good W i) (hp : p ∈ (W i).parents) : Good W p :=
  fun j hj => h j (.head hp hj)

theorem get_put (c : Store D) (d : D) (a b : Attr) : (c.put d a).get b = if b = a then some d else c.get b := by
  cases a <;> cases b <;> rfl

theorem put_get (s : State D) (i j : ℕ) (a b : Attr) (d : D) :
    ((s.put i a d) j).get b = if j = i ∧ b = a then some d else (s j).get b := by
  unfold State.put
  by_cases hj : j = i
  · subst hj
    simp [Function.update_self, get_put]
  · simp [Function.update_of_ne hj, hj]

theorem inv_put {s : State D} {i : ℕ} {a : Attr} {d : D} (hs : Inv W v s) (h : Good W i → v i a = .ok d) :
    Inv W v (s.put i a d) := by
  intro j hj b d' hd
  rw [put_get] at hd
  split_ifs at hd with hc
  · obtain ⟨rfl, rfl⟩ := hc
    cases hd
    exact h hj
  · exact hs j hj b d' hd

theorem inv_fresh : Inv W v State.fresh := by
  intro j _ a d h
  cases a <;> cases h

/-- right: keeps the invariant, and gives the value by definition if the object is good -/
def Right (W : ℕ → Init D) (v : ℕ → Attr → Except PyErr D) (i : ℕ) (a : Attr) (m : Eval D D) : Prop :=
  ∀ s, Inv W v s → Inv W v (m s).2 ∧ (Good W i → (m s).1 = v i a)

theorem right_lazily {i : ℕ} {a : Attr} {m : Eval D D} (h : Right W v i a m) : Right W v i a (lazily i a m) := by
  intro s hs
  unfold lazily
  rcases e : (s i).get a with _ | d
  · obtain ⟨h1, h2⟩ := h s hs
    rcases e' : m s with ⟨_ | d, s'⟩
    · rw [e'] at h1 h2
      exact ⟨h1, h2⟩
    · rw [e'] at h1 h2
      exact ⟨inv_put h1 fun hg => (h2 hg).symm, h2⟩
  · exact ⟨hs, fun hg => (hs i hg a d e).symm⟩

theorem right_andThen {i : ℕ} {a b : Attr} {m : Eval D D} {f : D → Except PyErr D} (h : Right W v i a m)
    (hb : v i b = v i a >>= f) : Right W v i b (andThen m f) := by
  intro s hs
  obtain ⟨h1, h2⟩ := h s hs
  unfold andThen
  rcases e' : m s with ⟨_ | d, s'⟩ <;> rw [e'] at h1 h2
  · exact ⟨h1, fun hg => by rw [hb, ← h2 hg]; rfl⟩
  · exact ⟨h1, fun hg => by rw [hb, ← h2 hg]; rfl⟩

theorem inOrder_right {g : ℕ → Eval D D} : ∀ {ps : List ℕ}, (∀ p ∈ ps, Right W v p .pdf (g p)) →
    ∀ s, Inv W v s → Inv W v (inOrder g ps s).2 ∧
      ((∀ p ∈ ps, Good W p) → (inOrder g ps s).1 = ps.mapM fun p => v p .pdf)
  | [], _, s, hs => ⟨hs, fun _ => rfl⟩
  | p :: ps, h, s, hs => by
    obtain ⟨h1, h2⟩ := h p (by simp) s hs
    unfold inOrder
    rcases e : g p s with ⟨_ | d, s'⟩ <;> rw [e] at h1 h2
    · refine ⟨h1, fun hg => ?_⟩
      rw [List.mapM_cons, ← h2 (hg p (by simp))]
      rfl
    · obtain ⟨h3, h4⟩ := inOrder_right (fun q hq => h q (List.mem_cons_of_mem _ hq)) s' h1
      rcases e' : inOrder g ps s' with ⟨_ | ds, s''⟩ <;> rw [e'] at h3 h4
      · refine ⟨by simpa only [e'] using h3, fun hg => ?_⟩
        rw [List.mapM_cons, ← h2 (hg p (by simp)), ← h4 fun q hq => hg q (List.mem_cons_of_mem _ hq)]
        simp only [e']
        rfl
      · refine ⟨by simpa only [e'] using h3, fun hg => ?_⟩
        rw [List.mapM_cons, ← h2 (hg p (by simp)), ← h4 fun q hq => hg q (List.mem_cons_of_mem _ hq)]
        simp only [e']
        rfl

theorem runSteps_foldlM : ∀ (fs : List (D → Except PyErr D)) (d : D),
    (runSteps fs d).1 = none → fs.foldlM (fun d f => f d) d = .ok (runSteps fs d).2
  | [], _, _ => rfl
  | f :: fs, d, h => by
    unfold runSteps at h ⊢
    rw [List.foldlM_cons]
    rcases e : f d with _ | d'
    · rw [e] at h; cases h
    · rw [e] at h
      exact runSteps_foldlM fs d' h

theorem runSteps_error : ∀ (fs : List (D → Except PyErr D)) (d : D) (e : PyErr),
    (runSteps fs d).1 = some e → fs.foldlM (fun d f => f d) d = .error e
  | [], _, _, h => by cases h
  | f :: fs, d, e, h => by
    unfold runSteps at h
    rw [List.foldlM_cons]
    rcases e' : f d with _ | d'
    · rw [e'] at h; cases h; rfl
    · rw [e'] at h
      exact runSteps_error fs d' e h

theorem getPdf_right (hW : Built W) (hv : ByDefinition W o v) : ∀ fuel i, i < fuel → Right W v i .pdf (getPdf W fuel i)
  | 0, _, h => absurd h (Nat.not_lt_zero _)
  | fuel + 1, i, hi => by
    intro s hs
    unfold getPdf
    rcases e : (s i).pdf with _ | d
    · rcases eW : W i with ⟨ps, f⟩ | ⟨_ | d, fs⟩
      · have hps : ∀ p ∈ ps, p ∈ (W i).parents := by rw [eW]; exact fun p hp => hp
        obtain ⟨h1, h2⟩ := inOrder_right (v := v) (g := getPdf W fuel) (ps := ps)
          (fun p hp => getPdf_right hW hv fuel p (by have := hW i p (hps p hp); omega)) s hs
        have key : Good W i → (inOrder (getPdf W fuel) ps s).1 >>= f = v i .pdf := fun hg => by
          rw [hv.atOnce i ps f eW, h2 fun p hp => good_parent hg (hps p hp)]
        rcases e' : inOrder (getPdf W fuel) ps s with ⟨_ | ds, s'⟩ <;> rw [e'] at h1 key
        · simp only [e']
          exact ⟨h1, key⟩
        · simp only [e']
          rcases ef : f ds with _ | d
          · refine ⟨h1, fun hg => ?_⟩
            rw [← key hg]; exact ef.symm
          · refine ⟨inv_put h1 fun hg => ?_, fun hg => ?_⟩
            · rw [← key hg]; exact ef
            · rw [← key hg]; exact ef.symm
      · refine ⟨hs, fun _ => ?_⟩
        rw [hv.stepwise i _ fs eW]; rfl
      · have hd := hv.stepwise i _ fs eW
        have hd' : v i .pdf = fs.foldlM (fun d f => f d) d := hd
        simp only
        rcases er : runSteps fs d with ⟨_ | e', d'⟩
        · have h := runSteps_foldlM fs d (by rw [er])
          rw [er] at h
          exact ⟨inv_put hs fun _ => by rw [hd', h], fun _ => by rw [hd', h]⟩
        · have h := runSteps_error fs d e' (by rw [er])
          refine ⟨inv_put hs fun hg => ?_, fun _ => by rw [hd', h]⟩
          have := good_self hg
          rw [eW] at this
          obtain ⟨d'', h''⟩ := this d rfl
          rw [h] at h''
          cases h''
    · exact ⟨hs, fun hg => (hs i hg .pdf d e).symm⟩

theorem getAttr_right (hW : Built W) (hv : ByDefinition W o v) (i : ℕ) (a : Attr) :
    Right W v i a (getAttr W o i a) := by
  have h0 := getPdf_right hW hv (i + 1) i (Nat.lt_succ_self i)
  have h1 : Right W v i .cdf (getCdf W o i) := right_lazily (right_andThen h0 (hv.cdf i))
  have h2 : Right W v i .ccdf (getCcdf W o i) := right_lazily (right_andThen h1 (hv.ccdf i))
  cases a
  · exact h0
  · exact h1
  · exact right_lazily (right_andThen h1 (hv.cdfInterp i))
  · exact h2
  · exact right_lazily (right_andThen h2 (hv.ccdfInterp i))

theorem ask_right (hW : Built W) (hv : ByDefinition W o v) : ∀ (q : Query D R) (s : State D), Inv W v s →
    Inv W v (ask W o q s).2 ∧ (q.Within (Good W) → (ask W o q s).1 = q.by v)
  | .answer _, _, hs => ⟨hs, fun _ => rfl⟩
  | .read i a next, s, hs => by
    obtain ⟨h1, h2⟩ := getAttr_right hW hv i a s hs
    obtain ⟨h3, h4⟩ := ask_right hW hv (next (getAttr W o i a s).1) _ h1
    refine ⟨h3, fun hq => ?_⟩
    have h5 := h4 (hq.2 _)
    show (ask W o (next (getAttr W o i a s).1) (getAttr W o i a s).2).1 = (next (v i a)).by v
    rw [h5, h2 hq.1]

theorem run_inv (hW : Built W) (hv : ByDefinition W o v) : ∀ (h : List (Event D R)) (s : State D), OnlyAsked h →
    Inv W v s → Inv W v (run W o h s)
  | [], _, _, hs => hs
  | e :: h, s, hh, hs => by
    obtain ⟨q, rfl⟩ := hh e (by simp)
    exact run_inv hW hv h _ (fun e he => hh e (List.mem_cons_of_mem _ he)) (ask_right hW hv q s hs).1

/-! ### what is kept stays -/

/-- later: everything kept before is still kept -/
def Later (s s' : State D) : Prop := ∀ j a d, (s j).get a = some d → (s' j).get a = some d

theorem later_refl (s : State D) : Later s s := fun _ _ _ h => h

theorem Later.trans {s s' s'' : State D} (h : Later s s') (h' : Later s' s'') : Later s s'' :=
  fun j a d hd => h' j a d (h j a d hd)

theorem later_put {s : State D} {i : ℕ} {a : Attr} (d : D) (h : (s i).get a = none) : Later s (s.put i a d) := by
  intro j b d' hd
  rw [put_get]
  split_ifs with hc
  · obtain ⟨rfl, rfl⟩ := hc
    rw [h] at hd; cases hd
  · exact hd

/-- an evaluation that changes attributes in `S` only, and keeps what is kept -/
def Local (S : ℕ → Attr → Prop) (m : Eval D D) : Prop :=
  ∀ s, Later s (m s).2 ∧ ∀ j a, ¬ S j a → ((m s).2 j).get a = (s j).get a

theorem inOrder_local {S : ℕ → Attr → Prop} {g : ℕ → Eval D D} : ∀ {ps : List ℕ}, (∀ p ∈ ps, Local S (g p)) → ∀ s,
    Later s (inOrder g ps s).2 ∧ ∀ j a, ¬ S j a → ((inOrder g ps s).2 j).get a = (s j).get a
  | [], _, s => ⟨later_refl s, fun _ _ _ => rfl⟩
  | p :: ps, h, s => by
    obtain ⟨h1, h2⟩ := h p (by simp) s
    unfold inOrder
    rcases e : g p s with ⟨_ | d, s'⟩ <;> rw [e] at h1 h2
    · exact ⟨h1, h2⟩
    · obtain ⟨h3, h4⟩ := inOrder_local (fun q hq => h q (List.mem_cons_of_mem _ hq)) s'
      have h5 : Later s (inOrder g ps s').2 := h1.trans h3
      have h6 : ∀ j a, ¬ S j a → ((inOrder g ps s').2 j).get a = (s j).get a :=
        fun j a hs => (h4 j a hs).trans (h2 j a hs)
      rcases e' : inOrder g ps s' with ⟨_ | ds, s''⟩ <;> rw [e'] at h5 h6 <;> simp only [e'] <;> exact ⟨h5, h6⟩

theorem local_mono {S T : ℕ → Attr → Prop} (hST : ∀ j a, S j a → T j a) {m : Eval D D} (h : Local S m) : Local T m :=
  fun s => ⟨(h s).1, fun j a ht => (h s).2 j a fun hs => ht (hST j a hs)⟩

theorem local_put {S : ℕ → Attr → Prop} {s s' : State D} {i : ℕ} {a : Attr} (d : D) (hi : S i a)
    (hn : (s' i).get a = none) (h : Later s s' ∧ ∀ j b, ¬ S j b → (s' j).get b = (s j).get b) :
    Later s (s'.put i a d) ∧ ∀ j b, ¬ S j b → ((s'.put i a d) j).get b = (s j).get b := by
  refine ⟨h.1.trans (later_put d hn), fun j b hs => ?_⟩
  rw [put_get, if_neg]
  · exact h.2 j b hs
  · rintro ⟨rfl, rfl⟩
    exact hs hi

theorem getPdf_local (hW : Built W) : ∀ fuel i, Local (fun j a => j ≤ i ∧ a = .pdf) (getPdf W fuel i)
  | 0, _ => fun s => ⟨later_refl s, fun _ _ _ => rfl⟩
  | fuel + 1, i => by
    intro s
    unfold getPdf
    rcases e : (s i).pdf with _ | d
    · rcases eW : W i with ⟨ps, f⟩ | ⟨_ | d, fs⟩
      · have hps : ∀ p ∈ ps, p < i := fun p hp => hW i p (by rw [eW]; exact hp)
        have h := inOrder_local (S := fun j a => j < i ∧ a = .pdf) (g := getPdf W fuel) (ps := ps)
          (fun p hp => local_mono (fun j a h => ⟨h.1.trans_lt (hps p hp), h.2⟩) (getPdf_local hW fuel p)) s
        rcases e' : inOrder (getPdf W fuel) ps s with ⟨_ | ds, s'⟩ <;> rw [e'] at h <;> simp only [e']
        · exact ⟨h.1, fun j a hs => h.2 j a fun hc => hs ⟨hc.1.le, hc.2⟩⟩
        · have hn : (s' i).get .pdf = none := by
            rw [h.2 i .pdf fun hc => absurd hc.1 (lt_irrefl _)]; exact e
          rcases ef : f ds with _ | d
          · exact ⟨h.1, fun j a hs => h.2 j a fun hc => hs ⟨hc.1.le, hc.2⟩⟩
          · exact local_put d ⟨le_rfl, rfl⟩ hn ⟨h.1, fun j a hs => h.2 j a fun hc => hs ⟨hc.1.le, hc.2⟩⟩
      · exact ⟨later_refl s, fun _ _ _ => rfl⟩
      · simp only
        rcases er : runSteps fs d with ⟨_ | e', d'⟩ <;> simp only <;>
          exact local_put d' ⟨le_rfl, rfl⟩ e ⟨later_refl s, fun _ _ _ => rfl⟩
    · exact ⟨later_refl s, fun _ _ _ => rfl⟩

theorem lazily_local {S : ℕ → Attr → Prop} {i : ℕ} {a : Attr} {m : Eval D D} (h : Local S m) (hi : ¬ S i a) :
    Local (fun j b => S j b ∨ j = i ∧ b = a) (lazily i a m) := by
  intro s
  unfold lazily
  rcases e : (s i).get a with _ | d
  · have h' := h s
    have hw : Later s (m s).2 ∧ ∀ j b, ¬ (S j b ∨ j = i ∧ b = a) → ((m s).2 j).get b = (s j).get b :=
      ⟨h'.1, fun j b hs => h'.2 j b fun hc => hs (.inl hc)⟩
    rcases e' : m s with ⟨_ | d, s'⟩ <;> rw [e'] at hw h'
    · exact hw
    · exact local_put d (.inr ⟨rfl, rfl⟩) ((h'.2 i a hi).trans e) hw
  · exact ⟨later_refl s, fun _ _ _ => rfl⟩

theorem andThen_local {S : ℕ → Attr → Prop} {m : Eval D D} (h : Local S m) (f : D → Except PyErr D) :
    Local S (andThen m f) := by
  intro s
  have h' := h s
  unfold andThen
  rcases e' : m s with ⟨_ | d, s'⟩ <;> rw [e'] at h' <;> exact h'

theorem getAttr_later (hW : Built W) (o : Ops D) (i : ℕ) (a : Attr) (s : State D) :
    Later s (getAttr W o i a s).2 := by
  have h0 := getPdf_local hW (i + 1) i
  have h1 : Local _ (getCdf W o i) := lazily_local (andThen_local h0 o.cumint) (by simp)
  have h2 : Local _ (getCcdf W o i) := lazily_local (andThen_local h1 o.rsub) (by simp)
  cases a
  · exact (h0 s).1
  · exact (h1 s).1
  · exact (lazily_local (andThen_local h1 o.interp) (by simp) s).1
  · exact (h2 s).1
  · exact (lazily_local (andThen_local h2 o.interp) (by simp) s).1

theorem ask_later (hW : Built W) (o : Ops D) : ∀ (q : Query D R) (s : State D), Later s (ask W o q s).2
  | .answer _, s => later_refl s
  | .read i a next, s => (getAttr_later hW o i a s).trans (ask_later hW o (next (getAttr W o i a s).1) _)

theorem run_later (hW : Built W) (o : Ops D) : ∀ (h : List (Event D R)) (s : State D), OnlyAsked h →
    Later s (run W o h s)
  | [], s, _ => later_refl s
  | e :: h, s, hh => by
    obtain ⟨q, rfl⟩ := hh e (by simp)
    exact (ask_later hW o q s).trans (run_later hW o h _ fun e he => hh e (List.mem_cons_of_mem _ he))

theorem lazily_kept {i : ℕ} {a : Attr} {m : Eval D D} {s : State D} {d : D} (h : (lazily i a m s).1 = .ok d) :
    ((lazily i a m s).2 i).get a = some d := by
  unfold lazily at h ⊢
  rcases e : (s i).get a with _ | d'
  · rw [e] at h
    rcases e' : m s with ⟨_ | d', s'⟩ <;> simp only [e'] at h ⊢
    · cases h
    · cases h
      rw [put_get, if_pos ⟨rfl, rfl⟩]
  · rw [e] at h
    cases h
    exact e

theorem getPdf_kept {fuel i : ℕ} {s : State D} {d : D} (h : (getPdf W fuel i s).1 = .ok d) :
    ((getPdf W fuel i s).2 i).get .pdf = some d := by
  cases fuel with
  | zero => cases h
  | succ fuel =>
    unfold getPdf at h ⊢
    rcases e : (s i).pdf with _ | d'
    · rw [e] at h
      rcases eW : W i with ⟨ps, f⟩ | ⟨_ | d', fs⟩ <;> simp only [eW] at h ⊢
      · rcases e' : inOrder (getPdf W fuel) ps s with ⟨_ | ds, s'⟩ <;> simp only [e'] at h ⊢
        · cases h
        · rcases ef : f ds with _ | d' <;> simp only [ef] at h ⊢
          · cases h
          · cases h
            rw [put_get, if_pos ⟨rfl, rfl⟩]
      · cases h
      · rcases er : runSteps fs d' with ⟨_ | e', d''⟩ <;> simp only [er] at h ⊢
        · cases h
          rw [put_get, if_pos ⟨rfl, rfl⟩]
        · cases h
    · rw [e] at h
      cases h
      exact e

theorem getAttr_kept {i : ℕ} {a : Attr} {s : State D} {d : D} (h : (getAttr W o i a s).1 = .ok d) :
    ((getAttr W o i a s).2 i).get a = some d := by
  cases a
  · exact getPdf_kept h
  all_goals exact lazily_kept h

theorem getAttr_of_kept {i : ℕ} {a : Attr} {s : State D} {d : D} (h : (s i).get a = some d) :
    getAttr W o i a s = (.ok d, s) := by
  cases a
  · show getPdf W (i + 1) i s = _
    unfold getPdf
    have h' : (s i).pdf = some d := h
    rw [h']
  all_goals
    simp only [getAttr, getCdf, getCdfInterp, getCcdf, getCcdfInterp, lazily, h]

end Pacal.Cache
