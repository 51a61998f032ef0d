import Verif.Standard.Mix
import Verif.Law.PropsLaw

/-!
Lemmas for `Verif.Standard.PropsMix`.
-/

namespace Pacal.Standard
open MeasureTheory Set

variable {K : Type*} [Field K] [LinearOrder K] [IsStrictOrderedRing K]

/-- some atom (of any mass) at `x` -/
def HasAtom (l : PF K) (x : K) : Prop := ∃ m, Seg.dirac x m ∈ l

theorem atomsApart_iff {eps : K} {f g : PF K} :
    PF.AtomsApart eps f g ↔ ∀ a b, HasAtom f a → HasAtom g b → a = b ∨ eps < |a - b| :=
  ⟨fun h a b ⟨m, hm⟩ ⟨n, hn⟩ => h a m b n hm hn, fun h a m b n hm hn => h a b ⟨m, hm⟩ ⟨n, hn⟩⟩

theorem mulReal_atom {eps : K} (he : 0 ≤ eps) {l q : PF K} (hl : PF.WF eps l) {r : K}
    (hq : PF.mulReal eps l r = some q) {x : K} (hx : HasAtom q x) : HasAtom l x := by
  let F : Seg K → Seg K := fun s =>
    match s with
    | .minf b f => .minf b (fun x => f x * r)
    | .pinf a f => .pinf a (fun x => f x * r)
    | .fin pole a b f => .fin pole a b (fun x => f x * r)
    | .const a b c => .fin .none a b (fun _ => c * r)
    | .dirac a m => .dirac a (m * r)
  have hlo : ∀ s, (F s).lo = s.lo := by intro s; cases s <;> rfl
  have hhi : ∀ s, (F s).hi = s.hi := by intro s; cases s <;> rfl
  have hDD : ∀ s a m, F s = .dirac a m → ∃ n, s = .dirac a n := by
    intro s a m h
    cases s with
    | dirac b n => cases h; exact ⟨n, rfl⟩
    | _ => cases h
  have hw : PF.WF eps (l.map F) := by
    refine ⟨?_, ?_⟩
    · intro s hs
      obtain ⟨t, ht, rfl⟩ := List.mem_map.1 hs
      have := hl.seg t ht
      cases t <;> exact this
    · rw [List.pairwise_map]
      refine hl.sorted.imp ?_
      intro s t h
      refine ⟨by rw [hhi, hlo]; exact h.1, ?_⟩
      intro a m a' m' e e'
      obtain ⟨n, h₁⟩ := hDD s a m e
      obtain ⟨n', h₂⟩ := hDD t a' m' e'
      exact h.2 a n a' n' h₁ h₂
  have e : PF.mulReal eps l r = some (l.map F) := addAll_self he hw
  rw [e, Option.some.injEq] at hq
  subst hq
  obtain ⟨m, hm⟩ := hx
  obtain ⟨t, ht, e⟩ := List.mem_map.1 hm
  obtain ⟨n, rfl⟩ := hDD t x m e
  exact ⟨n, ht⟩

theorem mulReal_ok {eps : K} (he : 0 ≤ eps) {l : PF K} (hl : PF.WF eps l) (r : K) :
    ∃ q, PF.mulReal eps l r = some q ∧ PF.WF eps q ∧ (∀ x, q.val x = l.val x * r) ∧
      (∀ x, q.massAt x = l.massAt x * r) ∧ ∀ x, HasAtom q x → HasAtom l x := by
  obtain ⟨q, h1, h2, h3, h4⟩ := C06_mul_real he l hl r
  exact ⟨q, h1, h2, h3, h4, fun x hx => mulReal_atom he hl h1 hx⟩

theorem add_ok {eps : K} (he : 0 ≤ eps) {f g : PF K} (hf : PF.WF eps f) (hg : PF.WF eps g)
    (hfg : PF.AtomsApart eps f g) :
    ∃ r, PF.operation eps (fun x y => x + y) f g = some r ∧ PF.WF eps r ∧ (∀ x, r.val x = f.val x + g.val x) ∧
      (∀ x, r.massAt x = f.massAt x + g.massAt x) ∧ ∀ x, HasAtom r x → HasAtom f x ∨ HasAtom g x := by
  obtain ⟨r, h₁, h₂, h₃, h₄⟩ := operation_ok he (op := fun x y : K => x + y) (by simp) hf hg hfg
  refine ⟨r, h₁, h₂, h₃, ?_, ?_⟩
  · intro x
    rw [massAt_eq_getDirac he h₂, massAt_eq_getDirac he hf, massAt_eq_getDirac he hg, h₄ x]
    cases PF.getDirac x f <;> cases PF.getDirac x g <;> simp [combMass]
  · rintro x ⟨m, hm⟩
    have := (getDirac_iff he h₂).2 hm
    rw [h₄] at this
    by_contra hn
    push Not at hn
    rw [getDirac_none.2 (fun m hm => hn.1 ⟨m, hm⟩), getDirac_none.2 (fun m hm => hn.2 ⟨m, hm⟩)] at this
    simp [combMass] at this

theorem mixStep_ok {eps : K} (he : 0 ≤ eps) {acc : PF K} {c : K × PF K} (ha : PF.WF eps acc) (hc : PF.WF eps c.2)
    (hac : PF.AtomsApart eps acc c.2) :
    ∃ r, mixStep eps acc c = some r ∧ PF.WF eps r ∧ (∀ x, r.val x = acc.val x + c.1 * c.2.val x) ∧
      (∀ x, r.massAt x = acc.massAt x + c.1 * c.2.massAt x) ∧ ∀ x, HasAtom r x → HasAtom acc x ∨ HasAtom c.2 x := by
  obtain ⟨q, a1, a2, a3, a4, a5⟩ := mulReal_ok he hc c.1
  rw [atomsApart_iff] at hac
  obtain ⟨r, b1, b2, b3, b4, b5⟩ := add_ok he ha a2 (atomsApart_iff.2 fun a b h h' => hac a b h (a5 b h'))
  refine ⟨r, ?_, b2, ?_, ?_, ?_⟩
  · rw [mixStep, a1]
    exact b1
  · intro x
    rw [b3, a3, mul_comm]
  · intro x
    rw [b4, a4, mul_comm]
  · intro x hx
    rcases b5 x hx with h | h
    · exact Or.inl h
    · exact Or.inr (a5 x h)

theorem mixFold_ok {eps : K} (he : 0 ≤ eps) : ∀ (t : List (K × PF K)) {acc : PF K}, PF.WF eps acc →
    (∀ c ∈ t, PF.WF eps c.2) → (∀ c ∈ t, PF.AtomsApart eps acc c.2) →
    t.Pairwise (fun c d => PF.AtomsApart eps c.2 d.2) →
    ∃ r, t.foldlM (mixStep eps) acc = some r ∧ PF.WF eps r ∧
      (∀ x, r.val x = acc.val x + (t.map fun c => c.1 * c.2.val x).sum) ∧
      (∀ x, r.massAt x = acc.massAt x + (t.map fun c => c.1 * c.2.massAt x).sum)
  | [], acc, ha, _, _, _ => ⟨acc, rfl, ha, fun x => by simp, fun x => by simp⟩
  | c :: t, acc, ha, ht, hac, hp => by
    rw [List.pairwise_cons] at hp
    obtain ⟨q, a1, a2, a3, a4, a5⟩ := mixStep_ok he ha (ht c (by simp)) (hac c (by simp))
    have hq : ∀ d ∈ t, PF.AtomsApart eps q d.2 := by
      intro d hd
      rw [atomsApart_iff]
      intro a b h h'
      rcases a5 a h with h | h
      · exact atomsApart_iff.1 (hac d (by simp [hd])) a b h h'
      · exact atomsApart_iff.1 (hp.1 d hd) a b h h'
    obtain ⟨r, b1, b2, b3, b4⟩ := mixFold_ok he t a2 (fun d hd => ht d (by simp [hd])) hq hp.2
    refine ⟨r, ?_, b2, ?_, ?_⟩
    · rw [List.foldlM_cons, a1]
      exact b1
    · intro x
      rw [b3, a3, List.map_cons, List.sum_cons, add_assoc]
    · intro x
      rw [b4, a4, List.map_cons, List.sum_cons, add_assoc]

theorem mix_ok {eps : K} (he : 0 ≤ eps) {cs : List (K × PF K)} (hne : cs ≠ []) (hw : ∀ c ∈ cs, PF.WF eps c.2)
    (hp : cs.Pairwise fun c d => PF.AtomsApart eps c.2 d.2) :
    ∃ r, mixPF eps (cs.map Prod.fst) (cs.map Prod.snd) = some r ∧ PF.WF eps r ∧
      (∀ x, r.val x = (cs.map fun c => c.1 * c.2.val x).sum) ∧
      (∀ x, r.massAt x = (cs.map fun c => c.1 * c.2.massAt x).sum) := by
  obtain ⟨c, t, rfl⟩ := List.exists_cons_of_ne_nil hne
  rw [List.pairwise_cons] at hp
  obtain ⟨q, a1, a2, a3, a4, a5⟩ := mulReal_ok he (hw c (by simp)) c.1
  obtain ⟨r, b1, b2, b3, b4⟩ := mixFold_ok he t a2 (fun d hd => hw d (by simp [hd])) (by
    intro d hd
    rw [atomsApart_iff]
    intro a b h h'
    exact atomsApart_iff.1 (hp.1 d hd) a b (a5 a h) h') hp.2
  refine ⟨r, ?_, b2, ?_, ?_⟩
  · rw [mixPF, if_pos (by simp), ← List.zip_of_prod rfl rfl]
    dsimp only
    rw [a1]
    exact b1
  · intro x
    rw [b3, a3, List.map_cons, List.sum_cons, mul_comm]
  · intro x
    rw [b4, a4, List.map_cons, List.sum_cons, mul_comm]

/-! ### laws -/

/-- weighted copies of all pieces of a component -/
noncomputable def scaleSeg (r : ℝ) : Seg ℝ → Seg ℝ
  | .minf b f => .minf b (fun x => r * f x)
  | .pinf a f => .pinf a (fun x => r * f x)
  | .fin pole a b f => .fin pole a b (fun x => r * f x)
  | .const a b c => .const a b (r * c)
  | .dirac a m => .dirac a (r * m)

theorem scaleSeg_val (r : ℝ) (s : Seg ℝ) (x : ℝ) : (scaleSeg r s).val x = r * s.val x := by
  cases s <;> simp [scaleSeg, Seg.val, Seg.lo, Seg.hi, Seg.fn, Seg.isDirac]

theorem scaleSeg_mass (r : ℝ) (s : Seg ℝ) (x : ℝ) : (scaleSeg r s).massAt x = r * s.massAt x := by
  cases s <;> simp [scaleSeg, Seg.massAt]

theorem scaleSeg_law {r : ℝ} (hr : 0 ≤ r) (s : Seg ℝ) : (scaleSeg r s).law = ENNReal.ofReal r • s.law := by
  have key : ∀ s t : Seg ℝ, (∀ x, s.val x = r * t.val x) →
      volume.withDensity (fun x => ENNReal.ofReal (s.val x)) =
        ENNReal.ofReal r • volume.withDensity (fun x => ENNReal.ofReal (t.val x)) := by
    intro s t h
    rw [← withDensity_smul' _ _ ENNReal.ofReal_ne_top]
    congr 1
    funext x
    rw [h, ENNReal.ofReal_mul hr]
    rfl
  cases s with
  | dirac a m =>
    simp only [scaleSeg, Seg.law]
    rw [ENNReal.ofReal_mul hr, mul_smul]
  | fin pole a b f => exact key _ _ (scaleSeg_val r _)
  | const a b c => exact key _ _ (scaleSeg_val r _)
  | minf b f => exact key _ _ (scaleSeg_val r _)
  | pinf a f => exact key _ _ (scaleSeg_val r _)

theorem scaleSeg_dens {r : ℝ} (hr : 0 ≤ r) {s : Seg ℝ} (hs : s.Dens) : (scaleSeg r s).Dens := by
  have key : ∀ s t : Seg ℝ, (∀ x, s.val x = r * t.val x) →
      (∀ᵐ x, 0 ≤ t.val x) ∧ Integrable (fun x => t.val x) volume →
      (∀ᵐ x, 0 ≤ s.val x) ∧ Integrable (fun x => s.val x) volume := by
    intro s t h ht
    constructor
    · filter_upwards [ht.1] with x hx
      rw [h]
      exact mul_nonneg hr hx
    · simp only [h]
      exact ht.2.const_mul r
  cases s with
  | dirac a m => exact mul_nonneg hr hs
  | fin pole a b f => exact key _ _ (scaleSeg_val r _) hs
  | const a b c => exact key _ _ (scaleSeg_val r _) hs
  | minf b f => exact key _ _ (scaleSeg_val r _) hs
  | pinf a f => exact key _ _ (scaleSeg_val r _) hs

theorem scale_law {r : ℝ} (hr : 0 ≤ r) (l : PF ℝ) : PF.law (l.map (scaleSeg r)) = ENNReal.ofReal r • PF.law l := by
  induction l with
  | nil => simp [PF.law]
  | cons s l ih =>
    rw [List.map_cons, PF.law_cons, PF.law_cons, ih, scaleSeg_law hr, smul_add]

theorem scale_val (r : ℝ) (l : PF ℝ) (x : ℝ) : PF.val (l.map (scaleSeg r)) x = r * PF.val l x := by
  rw [PF.val, PF.val, ← List.sum_map_mul_left, List.map_map]
  congr 1
  exact List.map_congr_left fun s _ => scaleSeg_val r s x

theorem scale_mass (r : ℝ) (l : PF ℝ) (x : ℝ) : PF.massAt (l.map (scaleSeg r)) x = r * PF.massAt l x := by
  rw [PF.massAt, PF.massAt, ← List.sum_map_mul_left, List.map_map]
  congr 1
  exact List.map_congr_left fun s _ => scaleSeg_mass r s x

/-- all the weighted pieces of all the components -/
noncomputable def flatMix (cs : List (ℝ × PF ℝ)) : List (Seg ℝ) := cs.flatMap fun c => c.2.map (scaleSeg c.1)

theorem flatMix_cons (c : ℝ × PF ℝ) (cs : List (ℝ × PF ℝ)) :
    flatMix (c :: cs) = c.2.map (scaleSeg c.1) ++ flatMix cs := rfl

theorem flatMix_law {cs : List (ℝ × PF ℝ)} (h0 : ∀ c ∈ cs, 0 ≤ c.1) :
    PF.law (flatMix cs) = (cs.map fun c => ENNReal.ofReal c.1 • PF.law c.2).sum := by
  induction cs with
  | nil => simp [flatMix, PF.law]
  | cons c cs ih =>
    rw [flatMix_cons, PF.law_append, scale_law (h0 c (by simp)), ih fun d hd => h0 d (by simp [hd]), List.map_cons,
      List.sum_cons]

theorem flatMix_val (cs : List (ℝ × PF ℝ)) (x : ℝ) :
    PF.val (flatMix cs) x = (cs.map fun c => c.1 * c.2.val x).sum := by
  induction cs with
  | nil => rfl
  | cons c cs ih =>
    have : PF.val (flatMix (c :: cs)) x = PF.val (c.2.map (scaleSeg c.1)) x + PF.val (flatMix cs) x := by
      rw [flatMix_cons]; simp [PF.val]
    rw [this, ih, scale_val, List.map_cons, List.sum_cons]

theorem flatMix_mass (cs : List (ℝ × PF ℝ)) (x : ℝ) :
    PF.massAt (flatMix cs) x = (cs.map fun c => c.1 * c.2.massAt x).sum := by
  induction cs with
  | nil => rfl
  | cons c cs ih =>
    have : PF.massAt (flatMix (c :: cs)) x = PF.massAt (c.2.map (scaleSeg c.1)) x + PF.massAt (flatMix cs) x := by
      rw [flatMix_cons]; simp [PF.massAt]
    rw [this, ih, scale_mass, List.map_cons, List.sum_cons]

theorem flatMix_dens {cs : List (ℝ × PF ℝ)} (h0 : ∀ c ∈ cs, 0 ≤ c.1) (hd : ∀ c ∈ cs, PF.Dens c.2) :
    PF.Dens (flatMix cs) := by
  intro s hs
  obtain ⟨c, hc, hs⟩ := List.mem_flatMap.1 hs
  obtain ⟨t, ht, rfl⟩ := List.mem_map.1 hs
  exact scaleSeg_dens (h0 c hc) (hd c hc t ht)

/-! ### range -/

theorem foldl_min_le {α : Type*} [LinearOrder α] (t : List (α × α)) (m : α) :
    t.foldl (fun m s => min m s.1) m ≤ m ∧ (∀ s ∈ t, t.foldl (fun m s => min m s.1) m ≤ s.1) ∧
      (t.foldl (fun m s => min m s.1) m = m ∨ ∃ s ∈ t, t.foldl (fun m s => min m s.1) m = s.1) := by
  induction t generalizing m with
  | nil => simp
  | cons r t ih =>
    obtain ⟨h1, h2, h3⟩ := ih (min m r.1)
    refine ⟨h1.trans (min_le_left _ _), ?_, ?_⟩
    · intro s hs
      rcases List.mem_cons.1 hs with rfl | hs
      · exact h1.trans (min_le_right _ _)
      · exact h2 s hs
    · rcases h3 with h3 | ⟨s, hs, h3⟩
      · rcases min_choice m r.1 with h | h
        · exact Or.inl (h3.trans h)
        · exact Or.inr ⟨r, by simp, h3.trans h⟩
      · exact Or.inr ⟨s, by simp [hs], h3⟩

theorem le_foldl_max {α : Type*} [LinearOrder α] (t : List (α × α)) (m : α) :
    m ≤ t.foldl (fun m s => max m s.2) m ∧ (∀ s ∈ t, s.2 ≤ t.foldl (fun m s => max m s.2) m) ∧
      (t.foldl (fun m s => max m s.2) m = m ∨ ∃ s ∈ t, t.foldl (fun m s => max m s.2) m = s.2) := by
  induction t generalizing m with
  | nil => simp
  | cons r t ih =>
    obtain ⟨h1, h2, h3⟩ := ih (max m r.2)
    refine ⟨(le_max_left _ _).trans h1, ?_, ?_⟩
    · intro s hs
      rcases List.mem_cons.1 hs with rfl | hs
      · exact (le_max_right _ _).trans h1
      · exact h2 s hs
    · rcases h3 with h3 | ⟨s, hs, h3⟩
      · rcases max_choice m r.2 with h | h
        · exact Or.inl (h3.trans h)
        · exact Or.inr ⟨r, by simp, h3.trans h⟩
      · exact Or.inr ⟨s, by simp [hs], h3⟩

/-! ### sampler -/

theorem mixCount_cons (i : ℕ) (idx : List ℕ) (k : ℕ) :
    mixCount (i :: idx) k = (if i = k then 1 else 0) + mixCount idx k := by
  by_cases h : i = k <;> simp [mixCount, List.filter_cons, h]
  omega

theorem maskAssign_ok {α : Type*} (k : ℕ) : ∀ (idx : List ℕ) (r draws : List α), r.length = idx.length →
    draws.length = mixCount idx k →
    ∃ r', maskAssign k idx r draws = some r' ∧ r'.length = idx.length ∧
      ∀ i, r'[i]? = if idx[i]? = some k then draws[mixCount (idx.take i) k]? else r[i]?
  | [], [], [], _, _ => ⟨[], rfl, rfl, fun i => by simp⟩
  | [], [], _ :: _, _, h => by simp [mixCount] at h
  | [], _ :: _, _, h, _ => by simp at h
  | _ :: _, [], _, h, _ => by simp at h
  | i :: idx, x :: r, draws, h1, h2 => by
    rw [mixCount_cons] at h2
    rw [List.length_cons, List.length_cons, Nat.succ_inj] at h1
    by_cases hik : i = k
    · rw [if_pos hik] at h2
      match draws, h2 with
      | [], h2 => rw [List.length_nil] at h2; omega
      | d :: draws, h2 =>
        obtain ⟨r', a, b, c⟩ := maskAssign_ok k idx r draws h1 (by rw [List.length_cons] at h2; omega)
        refine ⟨d :: r', ?_, by simp [b], ?_⟩
        · rw [maskAssign, if_pos hik, a]
          rfl
        · intro j
          cases j with
          | zero => simp [hik, mixCount]
          | succ j =>
            rw [List.getElem?_cons_succ, c, List.getElem?_cons_succ, List.take_succ_cons, mixCount_cons, if_pos hik,
              add_comm 1, List.getElem?_cons_succ, List.getElem?_cons_succ]
    · rw [if_neg hik, zero_add] at h2
      obtain ⟨r', a, b, c⟩ := maskAssign_ok k idx r draws h1 h2
      refine ⟨x :: r', ?_, by simp [b], ?_⟩
      · unfold maskAssign
        rw [if_neg hik, a]
        rfl
      · intro j
        cases j with
        | zero => simp [hik]
        | succ j =>
          rw [List.getElem?_cons_succ, c, List.getElem?_cons_succ, List.take_succ_cons, mixCount_cons, if_neg hik,
            zero_add, List.getElem?_cons_succ]

theorem mixRand_ok (rand : ℕ → ℕ → List ℝ) (hr : ∀ k n, (rand k n).length = n) (idx : List ℕ) (m : ℕ) :
    ∃ r, mixRand m rand idx = some r ∧ r.length = idx.length ∧
      ∀ i k, idx[i]? = some k → k < m → r[i]? = (rand k (mixCount idx k))[mixCount (idx.take i) k]? := by
  induction m with
  | zero => exact ⟨_, rfl, by simp, fun i k _ h => by omega⟩
  | succ m ih =>
    obtain ⟨r, a, b, c⟩ := ih
    obtain ⟨r', a', b', c'⟩ := maskAssign_ok m idx r (rand m (mixCount idx m)) b (hr _ _)
    refine ⟨r', ?_, b', ?_⟩
    · rw [mixRand] at a ⊢
      rw [List.range_succ, List.foldlM_append, a]
      simp [a']
    · intro i k hi hk
      rw [c']
      by_cases h : k = m
      · subst h
        rw [if_pos hi]
      · rw [if_neg (by rw [hi]; simpa using h)]
        exact c i k hi (by omega)

end Pacal.Standard
