import Verif.Util.Parallel
import Mathlib.Data.List.Basic
import Mathlib.Data.List.Induction
import Mathlib.Tactic.Ring
import Mathlib.Algebra.Order.Ring.Nat

/-!
# Property C45: parallel evaluation changes nothing
-/

set_option linter.unusedSectionVars false

namespace Pacal
open Par
variable {α β ε : Type}

namespace Par

theorem listMap_ok {f : α → Except ε β} : ∀ {xs : List α} {ys : List β}, listMap f xs = .ok ys →
    xs.map f = ys.map .ok
  | [], ys, h => by cases h; rfl
  | x :: xs, ys, h => by
    simp only [listMap, bind, Except.bind] at h
    split at h
    · cases h
    · next y hy =>
      split at h
      · cases h
      · next zs hz =>
        cases h
        rw [List.map_cons, List.map_cons, hy, listMap_ok hz]

theorem listMap_of_ok {f : α → Except ε β} {g : α → β} : ∀ {xs : List α}, (∀ x ∈ xs, f x = .ok (g x)) →
    listMap f xs = .ok (xs.map g)
  | [], _ => rfl
  | x :: xs, h => by
    simp only [listMap, bind, Except.bind]
    rw [h x (by simp), listMap_of_ok (xs := xs) (fun y hy => h y (by simp [hy]))]
    rfl

theorem listMap_error {f : α → Except ε β} : ∀ {xs : List α} {e : ε}, listMap f xs = .error e →
    ∃ x ∈ xs, f x = .error e
  | [], e, h => by cases h
  | x :: xs, e, h => by
    simp only [listMap, bind, Except.bind] at h
    split at h
    · next e' he =>
      cases h
      exact ⟨x, by simp, he⟩
    · split at h
      · next e' he =>
        cases h
        obtain ⟨y, hy, h'⟩ := listMap_error he
        exact ⟨y, by simp [hy], h'⟩
      · cases h

theorem mem_chunk {c i : ℕ} {xs : List α} {x : α} (h : x ∈ chunk c i xs) : x ∈ xs :=
  List.mem_of_mem_drop (List.mem_of_mem_take h)

/-- every element is in the chunk with number (position / c) -/
theorem chunk_get {c k : ℕ} (hc : 0 < c) {xs : List α} {x : α} (h : xs[k]? = some x) :
    k / c < nChunks c xs.length ∧ x ∈ chunk c (k / c) xs := by
  have hk : k < xs.length := (List.getElem?_eq_some_iff.1 h).1
  constructor
  · unfold nChunks
    rw [Nat.lt_div_iff_mul_lt hc]
    have h1 := Nat.div_mul_le_self k c
    have h2 := Nat.div_add_mod k c
    have h3 := Nat.mul_comm (k / c) c
    omega
  · unfold chunk
    rw [List.mem_iff_getElem?]
    refine ⟨k % c, ?_⟩
    rw [List.getElem?_take_of_lt (Nat.mod_lt _ hc), List.getElem?_drop]
    have : k / c * c + k % c = k := by rw [Nat.mul_comm]; exact Nat.div_add_mod k c
    rw [this, h]

/-- effect of storing a slice -/
theorem getElem?_setSlice {γ : Type} {c i n : ℕ} (hc : 0 < c) {v ys : List γ} (hv : v.length = n)
    (hys : ys.length = min c (n - i * c)) (hi : i * c ≤ n) (k : ℕ) :
    (v.take (i * c) ++ ys ++ v.drop ((i + 1) * c))[k]? =
      if k / c = i ∧ k < n then ys[k - i * c]? else v[k]? := by
  have e1 : (i + 1) * c = i * c + c := by ring
  have l1 : (v.take (i * c)).length = i * c := by rw [List.length_take, hv]; omega
  by_cases h1 : k < i * c
  · have hne : k / c ≠ i := by
      have := (Nat.div_lt_iff_lt_mul hc).2 h1
      omega
    rw [if_neg (fun h => hne h.1), List.append_assoc, List.getElem?_append_left (by rw [l1]; exact h1),
      List.getElem?_take_of_lt h1]
  · push Not at h1
    rw [List.append_assoc, List.getElem?_append_right (by rw [l1]; exact h1), l1]
    by_cases h2 : k < i * c + c
    · have he : k / c = i := by
        apply Nat.div_eq_of_lt_le
        · exact h1
        · rw [e1]; exact h2
      by_cases h3 : k < n
      · rw [if_pos ⟨he, h3⟩, List.getElem?_append_left (by rw [hys]; omega)]
      · rw [if_neg (fun h => h3 h.2), List.getElem?_eq_none (l := v) (by omega), List.getElem?_eq_none]
        rw [List.length_append, hys, List.length_drop, hv]
        omega
    · have hne : k / c ≠ i := by
        have : i + 1 ≤ k / c := (Nat.le_div_iff_mul_le hc).2 (by rw [e1]; omega)
        omega
      rw [if_neg (fun h => hne h.1)]
      by_cases h3 : k < n
      · rw [List.getElem?_append_right (by rw [hys]; omega), List.getElem?_drop, hys]
        congr 1
        omega
      · rw [List.getElem?_eq_none (l := v) (by omega), List.getElem?_eq_none]
        rw [List.length_append, hys, List.length_drop, hv]
        omega

/-- without exceptions: after the tasks `done` have arrived, exactly their positions are filled -/
theorem collect_ok (c : ℕ) (hc : 0 < c) (f : α → Except ε β) (g : α → β) (xs : List α)
    (hf : ∀ x ∈ xs, f x = .ok (g x)) : ∀ (order : List ℕ), (∀ i ∈ order, i < nChunks c xs.length) →
    ∃ v : List (Option β), collect c f xs order = .value v ∧ v.length = xs.length ∧
      ∀ k x, xs[k]? = some x → v[k]? = some (if k / c ∈ order then some (g x) else none) := by
  intro order
  induction order using List.reverseRecOn with
  | nil =>
    intro _
    refine ⟨List.replicate xs.length none, rfl, by simp, ?_⟩
    intro k x h
    have hk : k < xs.length := (List.getElem?_eq_some_iff.1 h).1
    simp [hk]
  | append_singleton order i ih =>
    intro ho
    obtain ⟨v, hv, hlen, hget⟩ := ih (fun j hj => ho j (by simp [hj]))
    have hi := ho i (by simp)
    have hic : i * c ≤ xs.length := by
      unfold nChunks at hi
      have := (Nat.lt_div_iff_mul_lt hc).1 hi
      have h3 := Nat.mul_comm i c
      omega
    have hm : listMap f (chunk c i xs) = .ok ((chunk c i xs).map g) :=
      listMap_of_ok (fun x hx => hf x (mem_chunk hx))
    have hcol : collect c f xs (order ++ [i])
        = .value (v.take (i * c) ++ ((chunk c i xs).map g).map some ++ v.drop ((i + 1) * c)) := by
      unfold collect at hv ⊢
      rw [List.foldl_append, hv, List.foldl_cons, List.foldl_nil, hm]
      rfl
    have hys : (((chunk c i xs).map g).map some).length = min c (xs.length - i * c) := by
      simp [chunk]
    refine ⟨_, hcol, ?_, ?_⟩
    · rw [List.length_append, List.length_append, List.length_take, hys, List.length_drop, hlen]
      have e1 : (i + 1) * c = i * c + c := by ring
      omega
    · intro k x h
      have hk : k < xs.length := (List.getElem?_eq_some_iff.1 h).1
      rw [getElem?_setSlice hc hlen hys hic]
      by_cases hki : k / c = i
      · rw [if_pos ⟨hki, hk⟩, if_pos (by simp [hki])]
        have h1 : i * c ≤ k := by rw [← hki]; exact Nat.div_mul_le_self k c
        have h2 : k < i * c + c := by
          have := (Nat.div_lt_iff_lt_mul hc).1 (show k / c < i + 1 by omega)
          have e1 : (i + 1) * c = i * c + c := by ring
          omega
        rw [List.getElem?_map, List.getElem?_map]
        unfold chunk
        rw [List.getElem?_take_of_lt (by omega), List.getElem?_drop]
        have : i * c + (k - i * c) = k := by omega
        rw [this, h]
        rfl
      · rw [if_neg (fun h => hki h.1), hget k x h]
        simp [hki]

/-- once failed, always failed -/
theorem foldl_failed (c : ℕ) (f : α → Except ε β) (xs : List α) (e : ε) : ∀ (order : List ℕ),
    order.foldl (fun s i => s.set c i (listMap f (chunk c i xs))) (.failed e : MapState β ε) = .failed e := by
  intro order
  induction order with
  | nil => rfl
  | cons i order ih => rw [List.foldl_cons]; exact ih

/-- a failing chunk makes the whole map fail with an exception of `f` -/
theorem collect_error (c : ℕ) (f : α → Except ε β) (xs : List α) : ∀ (order : List ℕ) (s : MapState β ε),
    (∃ i ∈ order, ∃ e, listMap f (chunk c i xs) = .error e) → (∃ v, s = .value v) →
    ∃ e x, x ∈ xs ∧ f x = .error e ∧
      order.foldl (fun s i => s.set c i (listMap f (chunk c i xs))) s = .failed e := by
  intro order
  induction order with
  | nil => rintro s ⟨i, hi, _⟩; cases hi
  | cons j order ih =>
    rintro s ⟨i, hi, e, he⟩ ⟨v, rfl⟩
    rw [List.foldl_cons]
    cases hj : listMap f (chunk c j xs) with
    | error e' =>
      obtain ⟨x, hx, hfx⟩ := listMap_error hj
      exact ⟨e', x, mem_chunk hx, hfx, foldl_failed c f xs e' order⟩
    | ok ys =>
      rcases List.mem_cons.1 hi with rfl | hi
      · rw [hj] at he; cases he
      · exact ih _ ⟨i, hi, e, he⟩ ⟨_, rfl⟩

end Par

/-- **C45, same values in the same order.** For every function, list of points, positive chunk size and
order in which the workers finish: if the points can be evaluated one by one, `Pool.map` returns the same
list of values. -/
theorem C45_parallel_same (c : ℕ) (hc : 0 < c) (f : α → Except ε β) (xs : List α) (order : List ℕ)
    (horder : order.Perm (List.range (nChunks c xs.length))) (ys : List β) (h : listMap f xs = .ok ys) :
    poolMap c order f xs = .ok (ys.map some) := by
  classical
  have hmap := listMap_ok h
  have hlen : ys.length = xs.length := by simpa using (congrArg List.length hmap).symm
  by_cases hne : xs = []
  · subst hne
    have hy : ys = [] := by simpa using hlen
    subst hy
    have ho : order = [] := by
      have : nChunks c ([] : List α).length = 0 := by
        unfold nChunks
        rw [List.length_nil, Nat.zero_add]
        exact Nat.div_eq_of_lt (by omega)
      rw [this] at horder
      simpa using horder
    subst ho
    rfl
  · have hβ : Nonempty β := by
      cases ys with
      | nil => exact absurd (by simpa using hlen.symm) hne
      | cons y _ => exact ⟨y⟩
    have hall : ∀ x ∈ xs, ∃ y, f x = .ok y := by
      intro x hx
      have : f x ∈ xs.map f := List.mem_map.2 ⟨x, hx, rfl⟩
      rw [hmap] at this
      obtain ⟨y, _, hy⟩ := List.mem_map.1 this
      exact ⟨y, hy.symm⟩
    choose! g hg using hall
    have hys : ys = xs.map g := by
      have h2 := listMap_of_ok (f := f) (g := g) hg
      rw [h] at h2
      cases h2; rfl
    obtain ⟨v, hv, hvl, hget⟩ := collect_ok c hc f g xs hg order
      (fun i hi => List.mem_range.1 (horder.mem_iff.1 hi))
    unfold poolMap
    rw [hv]
    show Except.ok v = Except.ok (ys.map some)
    congr 1
    apply List.ext_getElem?
    intro k
    by_cases hk : k < xs.length
    · have hx : xs[k]? = some xs[k] := List.getElem?_eq_getElem hk
      rw [hget k _ hx, if_pos (horder.mem_iff.2 (List.mem_range.2 (chunk_get hc hx).1)), hys, List.getElem?_map,
        List.getElem?_map, hx]
      rfl
    · rw [List.getElem?_eq_none (by omega), List.getElem?_eq_none (by simp; omega)]

/-- **C45, exceptions.** If the evaluation of some point raises, sequential and parallel evaluation both
raise an exception raised by `f` at one of the points (not necessarily the same one). -/
theorem C45_parallel_error (c : ℕ) (hc : 0 < c) (f : α → Except ε β) (xs : List α) (order : List ℕ)
    (horder : order.Perm (List.range (nChunks c xs.length))) (e : ε) (h : listMap f xs = .error e) :
    (∃ x ∈ xs, f x = .error e) ∧ ∃ e' x, x ∈ xs ∧ f x = .error e' ∧ poolMap c order f xs = .error e' := by
  obtain ⟨x, hx, hfx⟩ := listMap_error h
  refine ⟨⟨x, hx, hfx⟩, ?_⟩
  obtain ⟨k, hk⟩ := List.mem_iff_getElem?.1 hx
  obtain ⟨hlt, hmem⟩ := chunk_get hc hk
  have hbad : ∃ e, listMap f (chunk c (k / c) xs) = .error e := by
    cases hl : listMap f (chunk c (k / c) xs) with
    | error e => exact ⟨e, rfl⟩
    | ok ys =>
      exfalso
      have := listMap_ok hl
      have hm : f x ∈ (chunk c (k / c) xs).map f := List.mem_map.2 ⟨x, hmem, rfl⟩
      rw [this] at hm
      obtain ⟨y, _, hy⟩ := List.mem_map.1 hm
      rw [hfx] at hy
      cases hy
  obtain ⟨e', x', hx', hfx', hc'⟩ := collect_error c f xs order (.value (List.replicate xs.length none))
    ⟨k / c, horder.mem_iff.2 (List.mem_range.2 hlt), hbad⟩ ⟨_, rfl⟩
  refine ⟨e', x', hx', hfx', ?_⟩
  unfold poolMap collect
  rw [hc']

/-- **C45, `get_parmap`.** Whatever map function is chosen, the values are those of sequential evaluation;
a worker process never uses a pool, so pools are not nested; and whenever the pool map is chosen there is
a pool. -/
theorem C45_get_parmap (parallel worker hasPool : Bool) (c : ℕ) (hc : 0 < c) (f : α → Except ε β) (xs : List α)
    (order : List ℕ) (horder : order.Perm (List.range (nChunks c xs.length))) (ys : List β)
    (h : listMap f xs = .ok ys) :
    apply (getParmap parallel worker hasPool).1 c order f xs = .ok (ys.map some) ∧
    (worker = true → (getParmap parallel worker hasPool).1 = .list) ∧
    ((getParmap parallel worker hasPool).1 = .pool → (getParmap parallel worker hasPool).2 = true) := by
  refine ⟨?_, ?_, ?_⟩
  · unfold apply
    split
    · rw [h]; rfl
    · exact C45_parallel_same c hc f xs order horder ys h
  · rintro rfl; cases parallel <;> rfl
  · cases parallel <;> cases worker <;> cases hasPool <;> decide

/-- The chunk size chosen by the pool is positive for every non-empty list. -/
theorem C45_chunk_size_pos (n procs : ℕ) (hn : 0 < n) (hp : 0 < procs) : 0 < chunkSize n procs := by
  unfold chunkSize
  split
  · next h => exact Nat.div_pos (Nat.le_of_dvd hn (Nat.dvd_of_mod_eq_zero h)) (by omega)
  · exact Nat.succ_pos _

/-- Non-vacuity: seven points in chunks of three, finishing in the order 2, 0, 1. -/
example : (poolMap 3 [2, 0, 1] (fun n : ℕ => (.ok (n * n) : Except Unit ℕ)) [1, 2, 3, 4, 5, 6, 7]
    matches .ok [some 1, some 4, some 9, some 16, some 25, some 36, some 49]) = true := by decide +kernel

/-- Finding: `par_map` does not create the pool; without one, long lists raise `AttributeError`. -/
theorem C45_finding_par_map (n : ℕ) (hn : 100 ≤ n) : parMapKind n false = .error .attribute := by
  unfold parMapKind
  rw [if_neg (by omega)]
  rfl

end Pacal
