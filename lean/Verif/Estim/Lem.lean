import Verif.Estim.Spec
import Verif.Segments.Eval
import Mathlib.Algebra.Order.BigOperators.Group.List
import Mathlib.Algebra.BigOperators.Group.List.Lemmas

/-! Lemmas for C89. -/

namespace Pacal.Estim

theorem bindAll_ok : ∀ {ks : List String} {vs : List ℝ} {d : List (String × ℝ)}, ks.length ≤ vs.length → ks.Nodup →
    (∀ p ∈ d, p.1 ∉ ks) → bindAll ks vs d = .ok (d ++ ks.zip vs)
  | [], vs, d, _, _, _ => by simp [bindAll]
  | k :: ks, [], d, h, _, _ => by simp at h
  | k :: ks, v :: vs, d, h, hn, hd => by
    have e : setItem d k v = d ++ [(k, v)] := by
      unfold setItem
      rw [if_neg]
      simp only [List.any_eq_true, decide_eq_true_eq, not_exists, not_and]
      intro p hp h'
      exact hd p hp (by simp [h'])
    rw [bindAll, e, bindAll_ok (by simpa using h) (List.nodup_cons.1 hn).2]
    · simp
    · intro p hp
      rcases List.mem_append.1 hp with hp | hp
      · intro h'; exact hd p hp (by simp [h'])
      · obtain rfl : p = (k, v) := by simpa using hp
        exact (List.nodup_cons.1 hn).1

theorem bindAll_short : ∀ {ks : List String} {vs : List ℝ} {d : List (String × ℝ)}, vs.length < ks.length →
    bindAll ks vs d = .error .index
  | [], vs, d, h => by simp at h
  | k :: ks, [], d, h => rfl
  | k :: ks, v :: vs, d, h => by
    rw [bindAll]
    exact bindAll_short (ks := ks) (vs := vs) (by simpa using h)

theorem negLog_eq {eps : ℝ} (he : 0 < eps) {xi : List ℝ} {pdf : PF ℝ} (hp : ∀ x ∈ xi, 0 ≤ pdf.evalVec x) :
    negLog eps .float xi pdf = -Real.log (likelihood (fun x => pdf.evalVec x + eps) xi) := by
  unfold negLog likelihood
  rw [Real.log_list_prod]
  · simp [DType.store, Function.comp_def]
  · intro y hy
    obtain ⟨x, hx, rfl⟩ := List.mem_map.1 hy
    exact (add_pos_of_nonneg_of_pos (hp x hx) he).ne'

theorem likelihood_pos {eps : ℝ} (he : 0 < eps) {xi : List ℝ} {p : ℝ → ℝ} (hp : ∀ x ∈ xi, 0 ≤ p x) :
    0 < likelihood (fun x => p x + eps) xi := by
  refine List.prod_pos fun y hy => ?_
  obtain ⟨x, hx, rfl⟩ := List.mem_map.1 hy
  exact add_pos_of_nonneg_of_pos (hp x hx) he

theorem likelihood_mono {xi : List ℝ} {p q : ℝ → ℝ} (h0 : ∀ x ∈ xi, 0 ≤ p x) (h : ∀ x ∈ xi, p x ≤ q x) :
    likelihood p xi ≤ likelihood q xi := by
  induction xi with
  | nil => simp [likelihood]
  | cons x xi ih =>
    simp only [likelihood, List.map_cons, List.prod_cons]
    refine mul_le_mul (h x (by simp)) (ih (fun y hy => h0 y (by simp [hy])) fun y hy => h y (by simp [hy])) ?_ ?_
    · refine List.prod_nonneg fun y hy => ?_
      obtain ⟨z, hz, rfl⟩ := List.mem_map.1 hy
      exact h0 z (by simp [hz])
    · exact (h0 x (by simp)).trans (h x (by simp))

theorem likelihood_scale (c : ℝ) (p : ℝ → ℝ) (xi : List ℝ) : likelihood (fun x => c * p x) xi = c ^ xi.length * likelihood p xi := by
  induction xi with
  | nil => simp [likelihood]
  | cons x xi ih =>
    simp only [likelihood, List.map_cons, List.prod_cons, List.length_cons, pow_succ] at ih ⊢
    rw [ih]; ring

theorem logli_eq {eps : ℝ} (he : 0 < eps) {D : List (String × ℝ) → Except PyErr (PF ℝ)} {xi : List ℝ} {e : Est}
    {S : Set (List ℝ)} {p : List ℝ → ℝ → ℝ} (hn : e.params.Nodup) (hF : Family D e.params S xi p) {θ : List ℝ} (hθ : θ ∈ S) :
    logli eps D .float xi e θ = .ok (-Real.log (likelihood (fun x => p θ x + eps) xi)) := by
  obtain ⟨pdf, h1, h2⟩ := hF.call θ hθ _ rfl
  have hk : makeKwargs e.params θ = .ok (e.params.zip θ) := by
    unfold makeKwargs
    rw [bindAll_ok (by rw [hF.length θ hθ]) hn (by simp)]
    simp
  unfold logli
  simp only [hk, h1, Bind.bind, Except.bind]
  rw [negLog_eq he fun x hx => by rw [h2 x hx]; exact hF.nonneg θ hθ x hx]
  congr 3
  unfold likelihood
  congr 1
  exact List.map_congr_left fun x hx => by rw [h2 x hx]

theorem lookup_setItem (d : List (String × ℝ)) (k : String) (v : ℝ) (x : String) :
    (setItem d k v).lookup x = if x = k then some v else d.lookup x := by
  unfold setItem
  split_ifs with h h1 h1
  · subst h1
    induction d with
    | nil => simp at h
    | cons p d ih =>
      obtain ⟨a, b⟩ := p
      by_cases hp : a = x
      · simp [hp]
      · have : (x == a) = false := by simpa using fun e => hp e.symm
        simp only [List.any_cons, hp, decide_false, Bool.false_or] at h
        simp only [List.map_cons, if_neg hp, List.lookup_cons, this]
        exact ih h
  · clear h
    induction d with
    | nil => rfl
    | cons p d ih =>
      obtain ⟨a, b⟩ := p
      by_cases hp : a = k
      · have e1 : (x == a) = false := by simpa [hp] using h1
        have e2 : (x == k) = false := by simpa using h1
        simp only [List.map_cons, if_pos hp, List.lookup_cons, e1, e2]
        exact ih
      · simp only [List.map_cons, if_neg hp, List.lookup_cons]
        rw [ih]
  · subst h1
    simp only [Bool.not_eq_true, List.any_eq_false, decide_eq_true_eq] at h
    have : d.lookup x = none := by
      rw [List.lookup_eq_none_iff]
      intro p hp
      simpa using fun e => h p hp e.symm
    simp [List.lookup_append, this]
  · have e2 : (x == k) = false := by simpa using h1
    simp [List.lookup_append, List.lookup_cons, e2]

theorem bindAll_lookup : ∀ (names : List String) (vals : List ℝ) (d : List (String × ℝ)), names.length ≤ vals.length →
    ∃ kw, bindAll names vals d = .ok kw ∧ ∀ k, kw.lookup k = ((names.zip vals).reverse ++ d).lookup k
  | [], vals, d, _ => ⟨d, rfl, by simp⟩
  | n :: ns, [], d, h => by simp at h
  | n :: ns, v :: vs, d, h => by
    obtain ⟨kw, e, hk⟩ := bindAll_lookup ns vs (setItem d n v) (by simpa using h)
    refine ⟨kw, e, fun k => ?_⟩
    rw [hk]
    simp only [List.zip_cons_cons, List.reverse_cons, List.append_assoc, List.lookup_append, lookup_setItem, List.lookup_cons,
      List.lookup_nil]
    by_cases hkn : k = n
    · subst hkn; simp
    · have : (k == n) = false := by simpa using hkn
      simp [hkn, this]

end Pacal.Estim
