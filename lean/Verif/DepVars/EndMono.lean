import Verif.DepVars.EndLoops

/-!
The result of `inference` does not depend on the number of rounds allowed.
-/

set_option linter.unusedSectionVars false

namespace Pacal.DepVars
variable {V K : Type} [DecidableEq V]

namespace Mdl
variable {wanted : List V} {env : Sympy V K} {cond : List (V × K)}

theorem inner_mono {before} : ∀ {fuel : ℕ} {M M' : Mdl V K} {exch : List V},
    inner env before wanted cond fuel M exch = .ok M' → inner env before wanted cond (fuel + 1) M exch = .ok M'
  | 0, M, M', exch, h => by cases h
  | fuel + 1, M, M', exch, h => by
    rw [inner] at h ⊢
    dsimp only at h ⊢
    split_ifs at h ⊢ with h0 h1
    · exact h
    · obtain ⟨N, a, b⟩ := bind_ok.1 h
      exact bind_ok.2 ⟨N, a, inner_mono b⟩
    · obtain ⟨anc, a, h⟩ := bind_ok.1 h
      refine bind_ok.2 ⟨anc, a, ?_⟩
      split_ifs at h ⊢ with h2
      · exact h
      · obtain ⟨ps, b, h⟩ := bind_ok.1 h
        refine bind_ok.2 ⟨ps, b, ?_⟩
        cases hf : firstPair before ps with
        | none =>
          rw [hf] at h
          exact h
        | some t =>
          obtain ⟨k, fv, dv⟩ := t
          rw [hf] at h
          dsimp only at h ⊢
          obtain ⟨N, c, h⟩ := bind_ok.1 h
          refine bind_ok.2 ⟨N, c, ?_⟩
          split_ifs at h ⊢ with h3
          · exact inner_mono h
          · obtain ⟨N₂, d, h⟩ := bind_ok.1 h
            exact bind_ok.2 ⟨N₂, d, inner_mono h⟩

theorem outer_mono {before} : ∀ {fuel : ℕ} {M M' : Mdl V K},
    outer env before wanted cond fuel M = .ok M' → outer env before wanted cond (fuel + 1) M = .ok M'
  | 0, M, M', h => by cases h
  | fuel + 1, M, M', h => by
    rw [outer] at h ⊢
    dsimp only at h ⊢
    split_ifs at h ⊢ with h0 h1
    · exact h
    · obtain ⟨N, a, b⟩ := bind_ok.1 h
      exact bind_ok.2 ⟨N, a, outer_mono b⟩
    · obtain ⟨cs, a, h⟩ := bind_ok.1 h
      obtain ⟨N, b, h⟩ := bind_ok.1 h
      obtain ⟨N₂, c, h⟩ := bind_ok.1 h
      exact bind_ok.2 ⟨cs, a, bind_ok.2 ⟨N, b, bind_ok.2 ⟨N₂, inner_mono c, outer_mono h⟩⟩⟩

theorem outer_mono_le {before} {n m : ℕ} (h : n ≤ m) {M M' : Mdl V K}
    (hn : outer env before wanted cond n M = .ok M') : outer env before wanted cond m M = .ok M' := by
  induction h with
  | refl => exact hn
  | step _ ih => exact outer_mono ih

end Mdl
end Pacal.DepVars
