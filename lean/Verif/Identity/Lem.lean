import Verif.Identity.Spec
import Verif.Standard.PropsE
import Verif.Standard.PropsD

/-!
Lemmas for `Verif.Identity.Props`: the pieces of the standard distributions follow each other without gaps and contain no atoms.
-/

namespace Pacal.Identity
open MeasureTheory ProbabilityTheory Standard

/-- pieces without atoms, each starting where the previous one ends -/
structure Linked (l : List (Seg ℝ)) : Prop where
  ne : l ≠ []
  cont : ∀ s ∈ l, s.isDirac = false
  chain : l.IsChain fun s t => s.hi = t.lo

theorem addSegment_perm {eps : ℝ} {l r : PF ℝ} {s : Seg ℝ} (hs : s.isDirac = false) (h : PF.addSegment eps l s = some r) :
    r.Perm (s :: l) := by
  have key : PF.insertSeg l s = some r := by
    cases s <;> first | exact h | simp [Seg.isDirac] at hs
  unfold PF.insertSeg at key
  split at key
  · cases key; exact insort_perm _ _ _
  · split at key
    · cases key; exact insort_perm _ _ _
    · cases s <;> simp [Seg.isDirac] at hs key

theorem addAll_perm {eps : ℝ} : ∀ (ss : List (Seg ℝ)) (l r : PF ℝ), (∀ s ∈ ss, s.isDirac = false) → PF.addAll eps l ss = some r →
    r.Perm (ss ++ l)
  | [], l, r, _, h => by cases h; exact List.Perm.refl _
  | s :: ss, l, r, hs, h => by
    rw [PF.addAll, Option.bind_eq_some_iff] at h
    obtain ⟨l', h1, h2⟩ := h
    have p1 := addSegment_perm (hs s (by simp)) h1
    have p2 := addAll_perm ss l' r (fun t ht => hs t (by simp [ht])) h2
    refine p2.trans ((List.Perm.append_left ss p1).trans ?_)
    exact List.perm_middle

theorem Linked.noHole {l : List (Seg ℝ)} (h : Linked l) (hw : ∀ s ∈ l, s.WF) : PF.NoHole l ∧ PF.NoHoleRight l := by
  obtain ⟨hne, -, hc⟩ := h
  induction l with
  | nil => exact absurd rfl hne
  | cons x l ih =>
    cases l with
    | nil =>
      refine ⟨fun s hs => Or.inl fun t ht => ?_, fun s hs => Or.inl fun t ht => ?_⟩ <;>
      · rw [List.mem_singleton] at hs ht
        rw [hs, ht]
    | cons y l =>
      rw [List.isChain_cons_cons] at hc
      have hle : ∀ s ∈ x :: y :: l, s.lo ≤ s.hi := fun s hs => Seg.lo_le_hi (hw s hs)
      obtain ⟨i1, i2⟩ := ih (fun s hs => hw s (List.mem_cons_of_mem _ hs)) (by simp) hc.2
      -- the first piece of a chain is the lowest
      have hlow : ∀ (l : List (Seg ℝ)) (y : Seg ℝ), (y :: l).IsChain (fun s t => s.hi = t.lo) → (∀ s ∈ y :: l, s.lo ≤ s.hi) →
          ∀ t ∈ y :: l, y.lo ≤ t.lo := by
        intro l
        induction l with
        | nil => intro y _ _ t ht; rw [List.mem_singleton] at ht; rw [ht]
        | cons z l ih =>
          intro y hc hl t ht
          rw [List.isChain_cons_cons] at hc
          rcases List.mem_cons.1 ht with rfl | ht
          · exact le_refl _
          · exact (hl y (by simp)).trans (hc.1 ▸ ih z hc.2 (fun s hs => hl s (List.mem_cons_of_mem _ hs)) t ht)
      have hy := hlow l y hc.2 fun s hs => hle s (List.mem_cons_of_mem _ hs)
      have hx : ∀ t ∈ x :: y :: l, x.lo ≤ t.lo := by
        intro t ht
        rcases List.mem_cons.1 ht with rfl | ht
        · exact le_refl _
        · exact (hle x (by simp)).trans (hc.1 ▸ hy t ht)
      refine ⟨fun s hs => ?_, fun s hs => ?_⟩
      · rcases List.mem_cons.1 hs with rfl | hs
        · exact Or.inl hx
        · rcases i1 s hs with h | ⟨t, ht, e⟩
          · exact Or.inr ⟨x, by simp, hc.1.trans (le_antisymm (hy s hs) (h y (by simp)))⟩
          · exact Or.inr ⟨t, List.mem_cons_of_mem _ ht, e⟩
      · rcases List.mem_cons.1 hs with rfl | hs
        · exact Or.inr ⟨y, by simp, hc.1.symm⟩
        · rcases i2 s hs with h | ⟨t, ht, e⟩
          · refine Or.inl fun t ht => ?_
            rcases List.mem_cons.1 ht with rfl | ht
            · exact (hc.1 ▸ hle y (by simp)).trans (h y (by simp))
            · exact h t ht
          · exact Or.inr ⟨t, List.mem_cons_of_mem _ ht, e⟩

/-- what holds of the density of every standard distribution -/
structure Tidy (l : PF ℝ) : Prop where
  ne : l ≠ []
  cont : ∀ s ∈ l, s.isDirac = false
  hole : l.NoHole
  holeRight : l.NoHoleRight

theorem noHole_perm {l r : PF ℝ} (h : r.Perm l) (hl : l.NoHole) : r.NoHole := by
  intro s hs
  rcases hl s (h.mem_iff.1 hs) with h1 | ⟨t, ht, e⟩
  · exact Or.inl fun t ht => h1 t (h.mem_iff.1 ht)
  · exact Or.inr ⟨t, h.mem_iff.2 ht, e⟩

theorem noHoleRight_perm {l r : PF ℝ} (h : r.Perm l) (hl : l.NoHoleRight) : r.NoHoleRight := by
  intro s hs
  rcases hl s (h.mem_iff.1 hs) with h1 | ⟨t, ht, e⟩
  · exact Or.inl fun t ht => h1 t (h.mem_iff.1 ht)
  · exact Or.inr ⟨t, h.mem_iff.2 ht, e⟩

theorem Linked.tidy {eps : ℝ} {ss : List (Seg ℝ)} {r : PF ℝ} (h : Linked ss) (hr : PF.addAll eps [] ss = some r) (hw : PF.WF eps r) :
    Tidy r := by
  have hp : r.Perm ss := by simpa using addAll_perm ss [] r h.cont hr
  obtain ⟨h1, h2⟩ := h.noHole fun s hs => hw.seg s (hp.mem_iff.2 hs)
  refine ⟨?_, fun s hs => h.cont s (hp.mem_iff.1 hs), noHole_perm hp h1, noHoleRight_perm hp h2⟩
  rintro rfl
  exact h.ne (by simpa using hp)

theorem finite?_eq {e : Ext ℝ} {a : ℝ} (h : finite? e = some a) : e = .fin a := by
  match e with
  | none => simp [finite?] at h
  | some none => simp [finite?] at h
  | some (some x) => simp [finite?] at h; rw [h]; rfl

theorem finPiece_eq {f : ℝ → ℝ} {a b : ℝ} {lp rp rp' : Bool} {s : Seg ℝ} (h : finPiece f a b lp rp rp' = some s) :
    s.isDirac = false ∧ s.lo = .fin a ∧ s.hi = .fin b := by
  unfold finPiece at h
  split_ifs at h <;> cases h <;> exact ⟨rfl, rfl, rfl⟩

theorem laterPieces_linked {f : ℝ → ℝ} : ∀ (l : List Break) (p : Break) (ss : List (Seg ℝ)), laterPieces f (p :: l) = some ss →
    (∀ s ∈ ss, s.isDirac = false) ∧ ss.IsChain (fun s t => s.hi = t.lo) ∧ ∀ s, ss.head? = some s → s.lo = p.at_
  | [], p, ss, h => by cases h; simp
  | [q], p, ss, h => by
    rw [laterPieces, Option.bind_eq_some_iff] at h
    obtain ⟨a, ha, h⟩ := h
    rw [finite?_eq ha]
    split_ifs at h
    · cases h
      simp [Seg.isDirac, Seg.lo]
    · rw [Option.bind_eq_some_iff] at h
      obtain ⟨b, -, h⟩ := h
      rw [Option.map_eq_some_iff] at h
      obtain ⟨s, hs, rfl⟩ := h
      obtain ⟨h1, h2, -⟩ := finPiece_eq hs
      simp [h1, h2]
  | q :: r :: l, p, ss, h => by
    rw [laterPieces, Option.bind_eq_some_iff] at h
    obtain ⟨a, ha, h⟩ := h
    rw [Option.bind_eq_some_iff] at h
    obtain ⟨b, hb, h⟩ := h
    rw [Option.bind_eq_some_iff] at h
    obtain ⟨s, hs, h⟩ := h
    rw [Option.map_eq_some_iff] at h
    obtain ⟨ss', hss, rfl⟩ := h
    obtain ⟨h1, h2, h3⟩ := finPiece_eq hs
    obtain ⟨i1, i2, i3⟩ := laterPieces_linked (r :: l) q ss' hss
    refine ⟨by simpa [h1] using i1, ?_, ?_⟩
    · rw [List.isChain_cons]
      exact ⟨fun t ht => by rw [i3 t ht, h3, finite?_eq hb], i2⟩
    · intro t ht
      simp only [List.head?_cons, Option.some.injEq] at ht
      rw [← ht, h2, finite?_eq ha]

theorem ofFun_tidy {eps : ℝ} {f : ℝ → ℝ} {bps : List (Ext ℝ)} {lp rp : Option (List Bool)} {r : PF ℝ}
    (h : ofFun eps f bps lp rp = some r) (hw : PF.WF eps r) : Tidy r := by
  unfold ofFun at h
  split at h
  · dsimp only at h
    split_ifs at h
    rw [Option.bind_eq_some_iff] at h
    obtain ⟨ss, h1, h2⟩ := h
    refine Linked.tidy ?_ h2 hw
    unfold pieces at h1
    split at h1
    · rename_i p q l _
      rw [Option.bind_eq_some_iff] at h1
      obtain ⟨s, hs, h1⟩ := h1
      rw [Option.map_eq_some_iff] at h1
      obtain ⟨ss', hss, rfl⟩ := h1
      obtain ⟨i1, i2, i3⟩ := laterPieces_linked l q ss' hss
      have hs' : s.isDirac = false ∧ s.hi = q.at_ := by
        split_ifs at hs
        · rw [Option.map_eq_some_iff] at hs
          obtain ⟨b, hb, rfl⟩ := hs
          exact ⟨rfl, (finite?_eq hb).symm⟩
        · rw [Option.bind_eq_some_iff] at hs
          obtain ⟨a, ha, hs⟩ := hs
          rw [Option.bind_eq_some_iff] at hs
          obtain ⟨b, hb, hs⟩ := hs
          obtain ⟨j1, j2, j3⟩ := finPiece_eq hs
          exact ⟨j1, j3.trans (finite?_eq hb).symm⟩
      refine ⟨by simp, by simpa [hs'.1] using i1, ?_⟩
      rw [List.isChain_cons]
      exact ⟨fun t ht => by rw [i3 t ht, hs'.2], i2⟩
    · cases h1
  · cases h

/-- two adjacent pieces -/
theorem tidy_of {eps : ℝ} {ss : List (Seg ℝ)} {r : PF ℝ} (hr : PF.addAll eps [] ss = some r) (hw : PF.WF eps r) (hne : ss ≠ [])
    (hc : ∀ s ∈ ss, s.isDirac = false) (hl : ss.IsChain fun s t => s.hi = t.lo) : Tidy r :=
  Linked.tidy ⟨hne, hc, hl⟩ hr hw

end Pacal.Identity
