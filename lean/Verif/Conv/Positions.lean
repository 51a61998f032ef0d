import Verif.Conv.MinMaxModel
import Verif.Segments.Atoms

/-! Adding pieces never loses the position of an atom (an atom may have mass 0). -/

namespace Pacal
namespace Conv
variable {K : Type*} [Field K] [LinearOrder K]

/-- there is an atom (possibly of mass 0) at `a` -/
def PF.At (l : PF K) (a : K) : Prop := ∃ m, Seg.dirac a m ∈ l

theorem at_merge {eps a m : K} : ∀ {l l' : PF K}, PF.mergeDirac eps a m l = some l' → ∀ b, PF.At l b → PF.At l' b
  | [], _, h => by simp [PF.mergeDirac] at h
  | .dirac a' m' :: l, l', h => by
    rintro b ⟨n, hb⟩
    rw [PF.mergeDirac] at h
    split_ifs at h
    · cases h
      rcases List.mem_cons.1 hb with e | hb
      · cases e; exact ⟨_, List.mem_cons_self ..⟩
      · exact ⟨n, by simp [hb]⟩
    · obtain ⟨l'', h1, rfl⟩ := Option.map_eq_some_iff.1 h
      rcases List.mem_cons.1 hb with e | hb
      · cases e; exact ⟨_, List.mem_cons_self ..⟩
      · obtain ⟨k, hk⟩ := at_merge h1 b ⟨n, hb⟩
        exact ⟨k, by simp [hk]⟩
  | .fin p a' b' f :: l, l', h => by
    rintro b ⟨n, hb⟩
    rw [PF.mergeDirac] at h
    · obtain ⟨l'', h1, rfl⟩ := Option.map_eq_some_iff.1 h
      obtain ⟨k, hk⟩ := at_merge h1 b ⟨n, by simpa using hb⟩
      exact ⟨k, by simp [hk]⟩
    · simp
  | .const a' b' f :: l, l', h => by
    rintro b ⟨n, hb⟩
    rw [PF.mergeDirac] at h
    · obtain ⟨l'', h1, rfl⟩ := Option.map_eq_some_iff.1 h
      obtain ⟨k, hk⟩ := at_merge h1 b ⟨n, by simpa using hb⟩
      exact ⟨k, by simp [hk]⟩
    · simp
  | .minf b' f :: l, l', h => by
    rintro b ⟨n, hb⟩
    rw [PF.mergeDirac] at h
    · obtain ⟨l'', h1, rfl⟩ := Option.map_eq_some_iff.1 h
      obtain ⟨k, hk⟩ := at_merge h1 b ⟨n, by simpa using hb⟩
      exact ⟨k, by simp [hk]⟩
    · simp
  | .pinf a' f :: l, l', h => by
    rintro b ⟨n, hb⟩
    rw [PF.mergeDirac] at h
    · obtain ⟨l'', h1, rfl⟩ := Option.map_eq_some_iff.1 h
      obtain ⟨k, hk⟩ := at_merge h1 b ⟨n, by simpa using hb⟩
      exact ⟨k, by simp [hk]⟩
    · simp

/-- an atom that is already there, or the new one -/
theorem addSegment_at [IsStrictOrderedRing K] {eps : K} (he : 0 ≤ eps) {s : Seg K} (hs : s.WF) {l r : PF K} (hl : PF.WF eps l)
    (hd : ∀ t ∈ l, Seg.Compat eps s t) (h : PF.addSegment eps l s = some r) (b : K) (hb : PF.At l b ∨ ∃ m, s = .dirac b m) :
    PF.At r b := by
  by_cases hc : ∀ t ∈ l, Seg.Disjoint eps s t
  · obtain ⟨r', hr, hp, -⟩ := addSegment_wf he hs hl hc
    obtain rfl : r' = r := Option.some.inj (hr.symm.trans h)
    rcases hb with ⟨m, hb⟩ | ⟨m, rfl⟩
    · exact ⟨m, hp.mem_iff.2 (by simp [hb])⟩
    · exact ⟨m, hp.mem_iff.2 (by simp)⟩
  · push Not at hc
    obtain ⟨t, ht, hn⟩ := hc
    rcases hd t ht with h1 | ⟨a, m, m', rfl, rfl⟩
    · exact absurd h1 hn
    · have hb' : PF.At l b := by
        rcases hb with hb | ⟨n, e⟩
        · exact hb
        · cases e; exact ⟨m', ht⟩
      rw [PF.addSegment] at h
      cases hm : PF.mergeDirac eps a m l with
      | none =>
        exfalso
        have key : ∀ {l : PF K}, Seg.dirac a m' ∈ l → PF.mergeDirac eps a m l ≠ none := by
          intro l
          induction l with
          | nil => simp
          | cons u l ih =>
            intro hu
            rcases List.mem_cons.1 hu with rfl | hu
            · simp [PF.mergeDirac, he]
            · have := ih hu
              cases u <;> simp [PF.mergeDirac, this]
              split_ifs <;> simp [this]
        exact key ht hm
      | some l' =>
        rw [hm] at h
        cases h
        exact at_merge hm b hb'

theorem addAll_at [IsStrictOrderedRing K] {eps : K} (he : 0 ≤ eps) : ∀ (ss : List (Seg K)) (l r : PF K), PF.WF eps l → (∀ s ∈ ss, s.WF) →
    ss.Pairwise (Seg.Compat eps) → (∀ s ∈ ss, ∀ t ∈ l, Seg.Compat eps s t) → PF.addAll eps l ss = some r →
    ∀ b, PF.At l b ∨ PF.At ss b → PF.At r b
  | [], l, r, _, _, _, _, h, b, hb => by
    cases h
    rcases hb with hb | ⟨m, hb⟩
    · exact hb
    · simp at hb
  | s :: ss, l, r, hl, hw, hp, hd, h, b, hb => by
    rw [List.pairwise_cons] at hp
    obtain ⟨l', h1, hwf, -, -, hmem⟩ := addSegment_compat he (hw s (by simp)) hl (hd s (by simp))
    rw [PF.addAll, h1, Option.bind_some] at h
    refine addAll_at he ss l' r hwf (fun t ht => hw t (by simp [ht])) hp.2 ?_ h b ?_
    · intro u hu t ht
      rcases hmem t ht with h | rfl | ⟨a, m, m', rfl, h⟩
      · exact hd u (by simp [hu]) t h
      · exact (hp.1 u hu).symm
      · exact compat_dirac (hd u (by simp [hu]) _ h)
    · have := addSegment_at he (hw s (by simp)) hl (hd s (by simp)) h1 b
      rcases hb with hb | ⟨m, hb⟩
      · exact .inl (this (.inl hb))
      · rcases List.mem_cons.1 hb with rfl | hb
        · exact .inl (this (.inr ⟨m, rfl⟩))
        · exact .inr ⟨m, hb⟩

end Conv
end Pacal
