import Verif.Equations.Spec

namespace Pacal.Equations
variable {S : Type} [DecidableEq S] {isAtom : S → Bool}

theorem record_sound {n : Node S} {acc : Eqs S} {a : S × S} (h : a ∈ record isAtom n acc) :
    a ∈ acc ∨ (isAtom n.sym = false ∧ a = (n.sym, n.name)) := by
  unfold record at h
  split at h
  · next hc =>
    rcases List.mem_append.1 h with h | h
    · exact .inl h
    · simp only [Bool.and_eq_true, Bool.not_eq_true'] at hc
      exact .inr ⟨hc.1, List.mem_singleton.1 h⟩
  · exact .inl h

theorem record_mono {n : Node S} {acc : Eqs S} {a : S × S} (h : a ∈ acc) : a ∈ record isAtom n acc := by
  unfold record
  split
  · exact List.mem_append_left _ h
  · exact h

theorem record_has {n : Node S} (acc : Eqs S) (h : isAtom n.sym = false) : ∃ x, (n.sym, x) ∈ record isAtom n acc := by
  unfold record
  split
  · exact ⟨n.name, List.mem_append_right _ (List.mem_singleton.2 rfl)⟩
  · next hc =>
    simp only [h, Bool.not_false, Bool.true_and, Bool.not_eq_true', Bool.not_eq_false] at hc
    simpa using hc

theorem record_nodup {n : Node S} {acc : Eqs S} (h : (acc.map Prod.fst).Nodup) : ((record isAtom n acc).map Prod.fst).Nodup := by
  unfold record
  split
  · next hc =>
    simp only [Bool.and_eq_true, Bool.not_eq_true'] at hc
    have hc2 : n.sym ∉ acc.map Prod.fst := fun hm => by
      have := List.contains_iff_mem.2 hm
      rw [hc.2] at this
      cases this
    rw [List.map_append, List.map_cons, List.map_nil, List.nodup_append]
    refine ⟨h, by simp, fun a ha b hb e => ?_⟩
    rw [List.mem_singleton.1 hb] at e
    exact hc2 ((show a = n.sym from e) ▸ ha)
  · exact h

theorem collect_mono : ∀ (n : Node S) {acc : Eqs S} {a : S × S}, a ∈ acc → a ∈ collect isAtom n acc
  | .free _ _, _, _, h => record_mono h
  | .one _ _ p, _, _, h => collect_mono p (record_mono h)
  | .more _ _ p q, _, _, h => collect_mono q (collect_mono p (record_mono h))

theorem collect_nodup : ∀ (n : Node S) {acc : Eqs S}, (acc.map Prod.fst).Nodup → ((collect isAtom n acc).map Prod.fst).Nodup
  | .free _ _, _, h => record_nodup h
  | .one _ _ p, _, h => collect_nodup p (record_nodup h)
  | .more _ _ p q, _, h => collect_nodup q (collect_nodup p (record_nodup h))

theorem collect_sound : ∀ (n : Node S) {acc : Eqs S} {a : S × S}, a ∈ collect isAtom n acc →
    a ∈ acc ∨ ∃ m, Uses n m ∧ isAtom m.sym = false ∧ a = (m.sym, m.name)
  | .free s x, acc, a, h => (record_sound h).imp id fun hh => ⟨_, .self _, hh⟩
  | .one s x p, acc, a, h => by
    rcases collect_sound p h with h | ⟨m, hm, hh⟩
    · exact (record_sound h).imp id fun hh => ⟨_, .self _, hh⟩
    · exact .inr ⟨m, .one hm, hh⟩
  | .more s x p q, acc, a, h => by
    rcases collect_sound q h with h | ⟨m, hm, hh⟩
    · rcases collect_sound p h with h | ⟨m, hm, hh⟩
      · exact (record_sound h).imp id fun hh => ⟨_, .self _, hh⟩
      · exact .inr ⟨m, .left hm, hh⟩
    · exact .inr ⟨m, .right hm, hh⟩

theorem collect_has {n m : Node S} (hu : Uses n m) (ha : isAtom m.sym = false) :
    ∀ acc : Eqs S, ∃ x, (m.sym, x) ∈ collect isAtom n acc := by
  induction hu with
  | self n =>
    intro acc
    obtain ⟨x, hx⟩ := record_has acc ha
    refine ⟨x, ?_⟩
    cases n with
    | free s y => exact hx
    | one s y p => exact collect_mono p hx
    | more s y p q => exact collect_mono q (collect_mono p hx)
  | one _ ih => exact fun acc => ih ha _
  | @left s y p q m _ ih =>
    intro acc
    obtain ⟨x, hx⟩ := ih ha (record isAtom (.more s y p q) acc)
    exact ⟨x, collect_mono q hx⟩
  | right _ ih => exact fun acc => ih ha _

end Pacal.Equations
