import Verif.Conv.OpLaw
import Verif.Util.PropsBreaks

/-! Lemmas on `convdiracs`. -/

namespace Pacal
namespace Conv
open MeasureTheory Set

variable {K : Type*} [Field K] [DecidableEq K]

/-- the atoms of a pair, seen through `Φ` -/
def atomPair {M : Type*} [Zero M] (Φ : K × K → M) (op : K → K → K) : Seg K → Seg K → M
  | .dirac a m, .dirac b n => Φ (op a b, m * n)
  | _, _ => 0

/-- one step of the loop -/
def step (op : K → K → K) (d : List (K × K)) (pr : Seg K × Seg K) : List (K × K) :=
  match pr with
      | (.dirac a m, .dirac b n) => dictAdd (op a b) (m * n) d
      | _ => d

theorem diracTable_eq (op : K → K → K) (f g : PF K) :
    diracTable op f g = (pairsBy (fun si sj => si.isDirac && sj.isDirac) f g).foldl (step op) [] := rfl

variable {M : Type*} [AddCommMonoid M] {Φ : K × K → M} {N : K → Prop}

theorem dictAdd_sum (hΦ : ∀ k v w, N v → N w → Φ (k, v + w) = Φ (k, v) + Φ (k, w)) {k v : K} (hv : N v) :
    ∀ {d : List (K × K)}, (∀ kv ∈ d, N kv.2) → ((dictAdd k v d).map Φ).sum = (d.map Φ).sum + Φ (k, v)
  | [], _ => by simp [dictAdd]
  | (k', v') :: r, hd => by
    rw [dictAdd]
    by_cases h : k' = k
    · subst h
      rw [if_pos rfl, List.map_cons, List.sum_cons, hΦ _ _ _ (hd (k', v') (by simp)) hv, List.map_cons, List.sum_cons]
      abel
    · rw [if_neg h, List.map_cons, List.sum_cons, dictAdd_sum hΦ hv fun kv hkv => hd kv (by simp [hkv]), List.map_cons,
        List.sum_cons, add_assoc]

theorem dictAdd_N (hN : ∀ v w, N v → N w → N (v + w)) {k v : K} (hv : N v) : ∀ {d : List (K × K)}, (∀ kv ∈ d, N kv.2) →
    ∀ kv ∈ dictAdd k v d, N kv.2
  | [], _ => by simpa [dictAdd] using hv
  | (k', v') :: r, hd => by
    rw [dictAdd]
    by_cases h : k' = k
    · rw [if_pos h]
      intro kv hkv
      rcases List.mem_cons.1 hkv with rfl | hkv
      · exact hN _ _ (hd (k', v') (by simp)) hv
      · exact hd kv (by simp [hkv])
    · rw [if_neg h]
      intro kv hkv
      rcases List.mem_cons.1 hkv with rfl | hkv
      · exact hd _ (by simp)
      · exact dictAdd_N hN hv (fun kv hkv => hd kv (by simp [hkv])) kv hkv

theorem dictAdd_keys {k v : K} : ∀ {d : List (K × K)} {x : K}, x ∈ (dictAdd k v d).map Prod.fst ↔ x = k ∨ x ∈ d.map Prod.fst
  | [], x => by simp [dictAdd]
  | (k', v') :: r, x => by
    rw [dictAdd]
    by_cases h : k' = k
    · subst h
      rw [if_pos rfl]
      simp
    · rw [if_neg h, List.map_cons, List.mem_cons, dictAdd_keys, List.map_cons, List.mem_cons]
      tauto

theorem dictAdd_nodup {k v : K} : ∀ {d : List (K × K)}, (d.map Prod.fst).Nodup → ((dictAdd k v d).map Prod.fst).Nodup
  | [], _ => by simp [dictAdd]
  | (k', v') :: r, hd => by
    rw [List.map_cons, List.nodup_cons] at hd
    rw [dictAdd]
    by_cases h : k' = k
    · rw [if_pos h]
      exact List.nodup_cons.2 hd
    · rw [if_neg h, List.map_cons, List.nodup_cons, dictAdd_keys]
      exact ⟨by rintro (e | e); exacts [h e, hd.1 e], dictAdd_nodup hd.2⟩

/-- `Nat`-free invariant of the fold -/
theorem foldl_step (hΦ : ∀ k v w, N v → N w → Φ (k, v + w) = Φ (k, v) + Φ (k, w)) (hN : ∀ v w, N v → N w → N (v + w))
    (op : K → K → K) :
    ∀ (l : List (Seg K × Seg K)) (d : List (K × K)), (∀ kv ∈ d, N kv.2) → (d.map Prod.fst).Nodup →
      (∀ pr ∈ l, ∀ a m b n, pr = (.dirac a m, .dirac b n) → N (m * n)) →
      ((l.foldl (step op) d).map Φ).sum = (d.map Φ).sum + (l.map fun pr => atomPair Φ op pr.1 pr.2).sum ∧
      (∀ kv ∈ l.foldl (step op) d, N kv.2) ∧ ((l.foldl (step op) d).map Prod.fst).Nodup ∧
      (∀ x ∈ (l.foldl (step op) d).map Prod.fst, x ∈ d.map Prod.fst ∨ ∃ a m b n, (.dirac a m, .dirac b n) ∈ l ∧ x = op a b)
  | [], d, h1, h2, _ => ⟨by simp, h1, h2, fun x hx => .inl hx⟩
  | (si, sj) :: l, d, h1, h2, h3 => by
    by_cases hp : ∃ a m b n, si = .dirac a m ∧ sj = .dirac b n
    · obtain ⟨a, m, b, n, rfl, rfl⟩ := hp
      have hmn := h3 _ (List.mem_cons_self ..) a m b n rfl
      have hs : step op d (.dirac a m, .dirac b n) = dictAdd (op a b) (m * n) d := rfl
      obtain ⟨i1, i2, i3, i4⟩ := foldl_step hΦ hN op l (dictAdd (op a b) (m * n) d) (dictAdd_N hN hmn h1) (dictAdd_nodup h2)
        (fun pr hpr => h3 pr (by simp [hpr]))
      rw [List.foldl_cons, hs]
      refine ⟨?_, i2, i3, ?_⟩
      · rw [i1, dictAdd_sum hΦ hmn h1, List.map_cons, List.sum_cons, add_assoc]; rfl
      · intro x hx
        rcases i4 x hx with h | ⟨a', m', b', n', h, e⟩
        · rcases dictAdd_keys.1 h with rfl | h
          · exact .inr ⟨a, m, b, n, by simp, rfl⟩
          · exact .inl h
        · exact .inr ⟨a', m', b', n', by simp [h], e⟩
    · have hs : step op d (si, sj) = d := by
        cases si <;> cases sj <;> first | rfl | exact absurd ⟨_, _, _, _, rfl, rfl⟩ hp
      have ha : atomPair Φ op si sj = 0 := by
        cases si <;> cases sj <;> first | rfl | exact absurd ⟨_, _, _, _, rfl, rfl⟩ hp
      obtain ⟨i1, i2, i3, i4⟩ := foldl_step hΦ hN op l d h1 h2 (fun pr hpr => h3 pr (by simp [hpr]))
      rw [List.foldl_cons, hs]
      refine ⟨?_, i2, i3, ?_⟩
      · rw [i1, List.map_cons, List.sum_cons, ha, zero_add]
      · intro x hx
        rcases i4 x hx with h | ⟨a', m', b', n', h, e⟩
        · exact .inl h
        · exact .inr ⟨a', m', b', n', by simp [h], e⟩

theorem diracTable_spec (hΦ : ∀ k v w, N v → N w → Φ (k, v + w) = Φ (k, v) + Φ (k, w)) (hN : ∀ v w, N v → N w → N (v + w))
    (op : K → K → K) (f g : PF K) (h : ∀ a m b n, .dirac a m ∈ f → .dirac b n ∈ g → N (m * n)) :
    ((diracTable op f g).map Φ).sum = sum2 f g (atomPair Φ op) ∧ (∀ kv ∈ diracTable op f g, N kv.2) ∧
      ((diracTable op f g).map Prod.fst).Nodup ∧
      (∀ x ∈ (diracTable op f g).map Prod.fst, ∃ a m b n, .dirac a m ∈ f ∧ .dirac b n ∈ g ∧ x = op a b) := by
  obtain ⟨i1, i2, i3, i4⟩ := foldl_step hΦ hN op (pairsBy (fun si sj => si.isDirac && sj.isDirac) f g) [] (by simp)
    (by simp) (by
      rintro pr hpr a m b n rfl
      obtain ⟨p1, p2, -⟩ := mem_pairsBy.1 hpr
      exact h _ _ _ _ p1 p2)
  rw [diracTable_eq]
  refine ⟨?_, i2, i3, ?_⟩
  · rw [i1, sum_pairsBy (k := atomPair Φ op)]
    · simp
    · intro si _ sj _ ht
      cases si <;> cases sj <;> first | rfl | simp [Seg.isDirac] at ht
  · intro x hx
    rcases i4 x hx with h | ⟨a, m, b, n, h, e⟩
    · simp at h
    · obtain ⟨p1, p2, -⟩ := mem_pairsBy.1 h
      exact ⟨a, m, b, n, p1, p2, e⟩

theorem sum2_atoms (op : K → K → K) (Φ : K × K → M) (f g : PF K) :
    sum2 f g (atomPair Φ op) = ((f.atomsOf ×ˢ g.atomsOf).map fun p => Φ (op p.1.1 p.2.1, p.1.2 * p.2.2)).sum := by
  unfold sum2
  induction f with
  | nil => simp [PF.atomsOf]
  | cons s f ih =>
    rw [List.map_cons, List.sum_cons, ih]
    have key : (g.map fun sj => atomPair Φ op s sj).sum =
        (((PF.atomsOf [s]) ×ˢ g.atomsOf).map fun p => Φ (op p.1.1 p.2.1, p.1.2 * p.2.2)).sum := by
      clear ih
      by_cases hs : ∃ a m, s = .dirac a m
      · obtain ⟨a, m, rfl⟩ := hs
        induction g with
        | nil => simp [PF.atomsOf]
        | cons t g ih =>
          rw [List.map_cons, List.sum_cons, ih]
          cases t <;> simp [PF.atomsOf, atomPair]
      · have h0 : ∀ sj, atomPair Φ op s sj = 0 := by
          intro sj
          cases s <;> first | rfl | exact absurd ⟨_, _, rfl⟩ hs
        have h1 : PF.atomsOf [s] = [] := by
          cases s <;> first | rfl | exact absurd ⟨_, _, rfl⟩ hs
        rw [h1]
        simp [h0]
    rw [key]
    have e : PF.atomsOf (s :: f) = PF.atomsOf [s] ++ PF.atomsOf f := by
      rw [PF.atomsOf, PF.atomsOf, PF.atomsOf, ← List.filterMap_append]; rfl
    rw [e, show (PF.atomsOf [s] ++ PF.atomsOf f) ×ˢ PF.atomsOf g = PF.atomsOf [s] ×ˢ PF.atomsOf g ++ PF.atomsOf f ×ˢ PF.atomsOf g from
      List.flatMap_append .., List.map_append, List.sum_append]

end Conv

namespace Conv
variable {K : Type*} [Field K] [LinearOrder K] [IsStrictOrderedRing K]

theorem dirac_pairwise {eps : K} {d : List (K × K)} (hn : (d.map Prod.fst).Nodup)
    (ha : ∀ x ∈ d.map Prod.fst, ∀ y ∈ d.map Prod.fst, x ≠ y → eps < |x - y|) :
    (d.map fun kv => (Seg.dirac kv.1 kv.2 : Seg K)).Pairwise (Seg.Disjoint eps) := by
  rw [List.pairwise_map]
  rw [List.Nodup, List.pairwise_map] at hn
  refine hn.imp_of_mem fun {x y} hx hy hne => ?_
  have h := ha x.1 (List.mem_map_of_mem hx) y.1 (List.mem_map_of_mem hy) hne
  rcases le_total x.1 y.1 with hl | hl
  · refine .inl ⟨Breaks.fin_le.2 hl, ?_⟩
    intro a m a' m' e1 e2
    cases e1; cases e2; exact h
  · refine .inr ⟨Breaks.fin_le.2 hl, ?_⟩
    intro a m a' m' e1 e2
    cases e1; cases e2; rwa [abs_sub_comm]

/-- the mass at every point -/
theorem convdiracs_mass {eps : K} (he : 0 ≤ eps) (op : K → K → K) (f g : PF K)
    (hap : ∀ p ∈ f.atomsOf, ∀ q ∈ g.atomsOf, ∀ p' ∈ f.atomsOf, ∀ q' ∈ g.atomsOf, op p.1 q.1 ≠ op p'.1 q'.1 →
      eps < |op p.1 q.1 - op p'.1 q'.1|) :
    ∃ r, convdiracs eps op f g = some r ∧ PF.WF eps r ∧ (∀ s ∈ r, s.isDirac = true) ∧ ∀ x, r.massAt x = pairMass op f g x := by
  have hmem : ∀ {l : PF K} {a m : K}, .dirac a m ∈ l → (a, m) ∈ l.atomsOf := by
    intro l a m h
    exact List.mem_filterMap.2 ⟨_, h, rfl⟩
  obtain ⟨-, -, t3, t4⟩ := diracTable_spec (Φ := fun _ => (0 : K)) (N := fun _ => True) (by simp) (by simp) op f g (by simp)
  have hd := dirac_pairwise (eps := eps) t3 (by
    intro x hx y hy hne
    obtain ⟨a, m, b, n, h1, h2, rfl⟩ := t4 x hx
    obtain ⟨a', m', b', n', h1', h2', rfl⟩ := t4 y hy
    exact hap _ (hmem h1) _ (hmem h2) _ (hmem h1') _ (hmem h2') hne)
  obtain ⟨r, r1, r2, r3, r4, r5⟩ := addAll_compat he ((diracTable op f g).map fun kv => (Seg.dirac kv.1 kv.2 : Seg K)) []
    ⟨by simp, List.Pairwise.nil⟩ (by
      intro s hs
      obtain ⟨kv, -, rfl⟩ := List.mem_map.1 hs
      trivial) (hd.imp fun h => .inl h) (by simp)
  refine ⟨r, r1, r2, ?_, ?_⟩
  · intro s hs
    rcases r5 s hs with h | h | ⟨a, m, m', rfl, -⟩
    · simp at h
    · obtain ⟨kv, -, rfl⟩ := List.mem_map.1 h
      rfl
    · rfl
  · intro x
    rw [r3 x]
    obtain ⟨t1, -⟩ := diracTable_spec (Φ := fun kv : K × K => if kv.1 = x then kv.2 else 0) (N := fun _ => True)
      (by intro k v w _ _; dsimp only; split_ifs <;> simp) (by simp) op f g (by simp)
    rw [sum2_atoms] at t1
    rw [pairMass, ← t1]
    simp only [PF.massAt, List.map_nil, List.sum_nil, add_zero, List.map_map]
    rfl

end Conv
end Pacal

namespace Pacal
namespace Conv
open MeasureTheory Set

/-- the atoms of a pair as a measure -/
noncomputable def atomLaw (op : ℝ → ℝ → ℝ) (si sj : Seg ℝ) : Measure ℝ :=
  atomPair (fun kv : ℝ × ℝ => ENNReal.ofReal kv.2 • Measure.dirac kv.1) op si sj

theorem diracs_self {d : PF ℝ} (h : ∀ s ∈ d, s.isDirac = true) : PF.diracs d = d := List.filter_eq_self.2 h

theorem convdiracs_law {eps : ℝ} (he : 0 ≤ eps) (op : ℝ → ℝ → ℝ) {f g : PF ℝ} (hf : PF.Dens f) (hg : PF.Dens g)
    (hap : ∀ a m b n a' m' b' n', Seg.dirac a m ∈ f → Seg.dirac b n ∈ g → Seg.dirac a' m' ∈ f → Seg.dirac b' n' ∈ g →
      op a b ≠ op a' b' → eps < |op a b - op a' b'|) :
    ∃ d, convdiracs eps op f g = some d ∧ PF.WF eps d ∧
      (∀ s ∈ d, ∃ x m, s = .dirac x m ∧ 0 ≤ m ∧ ∃ a p b q, Seg.dirac a p ∈ f ∧ Seg.dirac b q ∈ g ∧ x = op a b) ∧
      PF.law d = sum2 f g (atomLaw op) := by
  obtain ⟨t1, t2, t3, t4⟩ := diracTable_spec (Φ := fun kv : ℝ × ℝ => ENNReal.ofReal kv.2 • Measure.dirac kv.1) (N := (0 ≤ ·))
    (by intro k v w hv hw; dsimp only; rw [ENNReal.ofReal_add hv hw, add_smul]) (fun _ _ => add_nonneg) op f g
    (fun a m b n h1 h2 => mul_nonneg (hf _ h1) (hg _ h2))
  have hd := dirac_pairwise (eps := eps) t3 (by
    intro x hx y hy hne
    obtain ⟨a, m, b, n, h1, h2, rfl⟩ := t4 x hx
    obtain ⟨a', m', b', n', h1', h2', rfl⟩ := t4 y hy
    exact hap _ _ _ _ _ _ _ _ h1 h2 h1' h2' hne)
  obtain ⟨r, r1, r2, r3, r4, -, -, r7⟩ := addAll_law he (ss := (diracTable op f g).map fun kv => (Seg.dirac kv.1 kv.2 : Seg ℝ))
    (by
      intro s hs
      obtain ⟨kv, -, rfl⟩ := List.mem_map.1 hs
      trivial) (hd.imp fun h => .inl h) (by
      intro s hs
      obtain ⟨kv, hkv, rfl⟩ := List.mem_map.1 hs
      exact t2 kv hkv)
  refine ⟨r, r1, r2, ?_, ?_⟩
  · intro s hs
    have : ∃ x m m', s = .dirac x m ∧ Seg.dirac x m' ∈ (diracTable op f g).map fun kv => (Seg.dirac kv.1 kv.2 : Seg ℝ) := by
      rcases r7 s hs with h | h
      · obtain ⟨kv, hkv, rfl⟩ := List.mem_map.1 h
        exact ⟨_, _, _, rfl, h⟩
      · exact h
    obtain ⟨x, m, m', rfl, hm⟩ := this
    obtain ⟨kv, hkv, e⟩ := List.mem_map.1 hm
    cases e
    obtain ⟨a, p, b, q, h1, h2, e⟩ := t4 _ (List.mem_map_of_mem hkv)
    exact ⟨_, m, rfl, r3 _ hs, a, p, b, q, h1, h2, e⟩
  · rw [r4, PF.law, List.map_map]
    exact t1

end Conv
end Pacal
