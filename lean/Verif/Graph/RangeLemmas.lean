import Verif.Graph.Range

/-! Interval arithmetic lemmas for the ranges. -/

namespace Pacal
namespace Range

theorem span_bounds {l : List (Option EReal)} {r : EReal × EReal} (h : span l = some r) {x : EReal}
    (hx : some x ∈ l) : r.1 ≤ x ∧ x ≤ r.2 := by
  have hm : x ∈ l.filterMap id := by simpa using hx
  unfold span at h
  have hmin : ∀ (xs : List EReal) (y : EReal), xs.foldl min y ≤ y ∧ ∀ z ∈ xs, xs.foldl min y ≤ z := by
    intro xs
    induction xs with
    | nil => intro y; simp
    | cons z zs ih =>
      intro y
      obtain ⟨h1, h2⟩ := ih (min y z)
      refine ⟨h1.trans (min_le_left _ _), ?_⟩
      intro w hw
      rcases List.mem_cons.1 hw with rfl | hw
      · exact h1.trans (min_le_right _ _)
      · exact h2 w hw
  have hmax : ∀ (xs : List EReal) (y : EReal), y ≤ xs.foldl max y ∧ ∀ z ∈ xs, z ≤ xs.foldl max y := by
    intro xs
    induction xs with
    | nil => intro y; simp
    | cons z zs ih =>
      intro y
      obtain ⟨h1, h2⟩ := ih (max y z)
      refine ⟨(le_max_left _ _).trans h1, ?_⟩
      intro w hw
      rcases List.mem_cons.1 hw with rfl | hw
      · exact (le_max_right _ _).trans h1
      · exact h2 w hw
  split at h
  · next h0 => rw [h0] at hm; simp at hm
  · next y ys h0 =>
    cases h
    rw [h0] at hm
    rcases List.mem_cons.1 hm with rfl | hm
    · exact ⟨(hmin ys x).1, (hmax ys x).1⟩
    · exact ⟨(hmin ys y).2 x hm, (hmax ys y).2 x hm⟩

theorem span_some {l : List (Option EReal)} {r : EReal × EReal} (h : span l = some r) :
    ∃ x, some x ∈ l := by
  unfold span at h
  split at h
  · cases h
  · next y ys h0 =>
    have : y ∈ l.filterMap id := by rw [h0]; simp
    exact ⟨y, by simpa using this⟩

/-- the four products of ends -/
def Prods (a₁ b₁ a₂ b₂ x : EReal) : Prop :=
  npMul a₁ a₂ = some x ∨ npMul a₁ b₂ = some x ∨ npMul b₁ a₂ = some x ∨ npMul b₁ b₂ = some x

theorem npMul_comm (x y : EReal) : npMul x y = npMul y x := by
  unfold npMul
  rw [mul_comm]
  congr 1
  exact propext or_comm

theorem npMul_neg (x y : EReal) : npMul (-x) y = (npMul x y).map (- ·) := by
  unfold npMul
  have : ((-x = 0 ∧ (y = ⊤ ∨ y = ⊥)) ∨ (y = 0 ∧ (-x = ⊤ ∨ -x = ⊥))) ↔
      ((x = 0 ∧ (y = ⊤ ∨ y = ⊥)) ∨ (y = 0 ∧ (x = ⊤ ∨ x = ⊥))) := by
    rw [EReal.neg_eq_zero_iff, EReal.neg_eq_top_iff, EReal.neg_eq_bot_iff]; tauto
  by_cases h : (x = 0 ∧ (y = ⊤ ∨ y = ⊥)) ∨ (y = 0 ∧ (x = ⊤ ∨ x = ⊥))
  · rw [if_pos (this.2 h), if_pos h]; rfl
  · rw [if_neg (fun h' => h (this.1 h')), if_neg h]
    simp

theorem npMul_neg_right (x y : EReal) : npMul x (-y) = (npMul x y).map (- ·) := by
  rw [npMul_comm, npMul_neg, npMul_comm]

theorem npMul_coe (r t : ℝ) : npMul r t = some ((r * t : ℝ) : EReal) := by
  unfold npMul
  rw [if_neg]
  · simp
  · rintro (⟨_, h | h⟩ | ⟨_, h | h⟩) <;> simp at h

theorem mul_lower_pos {a₁ b₁ a₂ b₂ : EReal} {u v : ℝ} (h1 : a₁ ≤ u) (h1' : u ≤ b₁) (h2 : a₂ ≤ v)
    (h2' : v ≤ b₂) (hne : ∃ x, Prods a₁ b₁ a₂ b₂ x) (hv : 0 < v) :
    ∃ x, Prods a₁ b₁ a₂ b₂ x ∧ x ≤ ((u * v : ℝ) : EReal) := by
  have hb2 : (0 : EReal) < b₂ := lt_of_lt_of_le (by exact_mod_cast hv) h2'
  induction a₁ using EReal.rec with
  | bot =>
    refine ⟨⊥, .inr (.inl ?_), bot_le⟩
    unfold npMul
    rw [if_neg (by rintro (⟨h, _⟩ | ⟨h, _⟩); · simp at h
                   · exact hb2.ne' h), EReal.bot_mul_of_pos hb2]
  | top => exact absurd h1 (by simp)
  | coe r =>
    have h1 : r ≤ u := by exact_mod_cast h1
    rcases lt_trichotomy r 0 with hr | hr | hr
    · induction b₂ using EReal.rec with
      | bot => simp at hb2
      | top =>
        refine ⟨⊥, .inr (.inl ?_), bot_le⟩
        unfold npMul
        rw [if_neg (by rintro (⟨h, _⟩ | ⟨h, _⟩)
                       · exact hr.ne (by exact_mod_cast h)
                       · simp at h), EReal.coe_mul_top_of_neg hr]
      | coe t =>
        have h2' : v ≤ t := by exact_mod_cast h2'
        refine ⟨_, .inr (.inl (npMul_coe r t)), ?_⟩
        exact_mod_cast (by nlinarith : r * t ≤ u * v)
    · subst hr
      induction a₂ using EReal.rec with
      | coe t =>
        refine ⟨_, .inl (npMul_coe 0 t), ?_⟩
        exact_mod_cast (by nlinarith : 0 * t ≤ u * v)
      | top => exact absurd h2 (by simp)
      | bot =>
        induction b₂ using EReal.rec with
        | coe t =>
          refine ⟨_, .inr (.inl (npMul_coe 0 t)), ?_⟩
          exact_mod_cast (by nlinarith : 0 * t ≤ u * v)
        | bot => simp at hb2
        | top =>
          by_cases hb : b₁ = 0
          · subst hb
            obtain ⟨x, hx⟩ := hne
            exfalso
            rcases hx with h | h | h | h <;> simp [npMul] at h
          · have hpos : 0 < b₁ :=
              lt_of_le_of_ne (le_trans (by exact_mod_cast h1) h1') (Ne.symm hb)
            refine ⟨⊥, .inr (.inr (.inl ?_)), bot_le⟩
            unfold npMul
            rw [if_neg (by rintro (⟨h, _⟩ | ⟨h, _⟩)
                           · exact hb h
                           · simp at h), mul_comm, EReal.bot_mul_of_pos hpos]
    · induction a₂ using EReal.rec with
      | bot =>
        refine ⟨⊥, .inl ?_, bot_le⟩
        unfold npMul
        rw [if_neg (by rintro (⟨h, _⟩ | ⟨h, _⟩)
                       · exact hr.ne' (by exact_mod_cast h)
                       · simp at h), EReal.coe_mul_bot_of_pos hr]
      | top => exact absurd h2 (by simp)
      | coe t =>
        have h2 : t ≤ v := by exact_mod_cast h2
        refine ⟨_, .inl (npMul_coe r t), ?_⟩
        exact_mod_cast (by nlinarith : r * t ≤ u * v)

theorem prods_swap {a₁ b₁ a₂ b₂ x : EReal} (h : Prods a₁ b₁ a₂ b₂ x) : Prods a₂ b₂ a₁ b₁ x := by
  unfold Prods at *
  rw [npMul_comm a₂ a₁, npMul_comm a₂ b₁, npMul_comm b₂ a₁, npMul_comm b₂ b₁]
  tauto

theorem prods_neg_neg {a₁ b₁ a₂ b₂ x : EReal} (h : Prods a₁ b₁ a₂ b₂ x) :
    Prods (-b₁) (-a₁) (-b₂) (-a₂) x := by
  unfold Prods at *
  have : ∀ y z : EReal, npMul (-y) (-z) = npMul y z := by
    intro y z
    rw [npMul_neg, npMul_neg_right]
    cases npMul y z <;> simp
  simp only [this]
  tauto

theorem prods_neg {a₁ b₁ a₂ b₂ x : EReal} (h : Prods a₁ b₁ a₂ b₂ x) :
    Prods (-b₁) (-a₁) a₂ b₂ (-x) := by
  unfold Prods at *
  simp only [npMul_neg]
  rcases h with h | h | h | h <;> simp [h]

theorem mul_lower {a₁ b₁ a₂ b₂ : EReal} {u v : ℝ} (h1 : a₁ ≤ u) (h1' : u ≤ b₁) (h2 : a₂ ≤ v)
    (h2' : v ≤ b₂) (hne : ∃ x, Prods a₁ b₁ a₂ b₂ x) :
    ∃ x, Prods a₁ b₁ a₂ b₂ x ∧ x ≤ ((u * v : ℝ) : EReal) := by
  have hneg : ∀ {a b : EReal} {w : ℝ}, a ≤ w → w ≤ b → -b ≤ ((-w : ℝ) : EReal) ∧ ((-w : ℝ) : EReal) ≤ -a := by
    intro a b w ha hb
    rw [EReal.coe_neg]
    exact ⟨EReal.neg_le_neg_iff.2 hb, EReal.neg_le_neg_iff.2 ha⟩
  -- any nonzero second factor
  have main : ∀ {a₁ b₁ a₂ b₂ : EReal} {u v : ℝ}, a₁ ≤ u → u ≤ b₁ → a₂ ≤ v → v ≤ b₂ →
      (∃ x, Prods a₁ b₁ a₂ b₂ x) → v ≠ 0 → ∃ x, Prods a₁ b₁ a₂ b₂ x ∧ x ≤ ((u * v : ℝ) : EReal) := by
    intro a₁ b₁ a₂ b₂ u v h1 h1' h2 h2' hne hv
    rcases lt_or_gt_of_ne hv with hv | hv
    · obtain ⟨x, hx, hle⟩ := mul_lower_pos (hneg h1 h1').1 (hneg h1 h1').2 (hneg h2 h2').1 (hneg h2 h2').2
        (hne.imp fun x hx => prods_neg_neg hx) (by linarith : 0 < -v)
      refine ⟨x, ?_, by simpa using hle⟩
      have := prods_neg_neg hx
      simpa using this
    · exact mul_lower_pos h1 h1' h2 h2' hne hv
  by_cases hv : v = 0
  · by_cases hu : u = 0
    · subst hu; subst hv
      have h1 : a₁ ≤ 0 := by simpa using h1
      have h1' : 0 ≤ b₁ := by simpa using h1'
      have h2 : a₂ ≤ 0 := by simpa using h2
      have h2' : 0 ≤ b₂ := by simpa using h2'
      have k1 : ∀ {x y : EReal}, x ≤ 0 → 0 ≤ y → x * y ≤ 0 := by
        intro x y hx hy
        have h := EReal.neg_le_neg_iff.2 hx
        have : 0 ≤ -x * y := EReal.mul_nonneg (by simpa using h) hy
        rw [EReal.neg_mul] at this
        have := EReal.neg_le_neg_iff.2 this
        simpa using this
      simp only [mul_zero, EReal.coe_zero]
      by_cases n1 : (a₁ = 0 ∧ (b₂ = ⊤ ∨ b₂ = ⊥)) ∨ (b₂ = 0 ∧ (a₁ = ⊤ ∨ a₁ = ⊥))
      · by_cases n2 : (b₁ = 0 ∧ (a₂ = ⊤ ∨ a₂ = ⊥)) ∨ (a₂ = 0 ∧ (b₁ = ⊤ ∨ b₁ = ⊥))
        · rcases n1 with ⟨e1, e2⟩ | ⟨e1, e2⟩ <;> rcases n2 with ⟨f1, f2⟩ | ⟨f1, f2⟩
          · exfalso
            obtain ⟨x, hx⟩ := hne
            subst e1; subst f1
            rcases e2 with rfl | rfl <;> rcases f2 with rfl | rfl <;>
              (rcases hx with h | h | h | h <;> simp [npMul] at h)
          · subst e1; subst f1
            exact ⟨0, .inl (by simp [npMul]), le_rfl⟩
          · subst e1; subst f1
            exact ⟨0, .inr (.inr (.inr (by simp [npMul]))), le_rfl⟩
          · exfalso
            obtain ⟨x, hx⟩ := hne
            subst e1; subst f1
            rcases e2 with rfl | rfl <;> rcases f2 with rfl | rfl <;>
              (rcases hx with h | h | h | h <;> simp [npMul] at h)
        · refine ⟨b₁ * a₂, .inr (.inr (.inl ?_)), ?_⟩
          · unfold npMul; rw [if_neg n2]
          · rw [mul_comm]; exact k1 h2 h1'
      · refine ⟨a₁ * b₂, .inr (.inl ?_), k1 h1 h2'⟩
        unfold npMul; rw [if_neg n1]
    · obtain ⟨x, hx, hle⟩ := main h2 h2' h1 h1' (hne.imp fun x hx => prods_swap hx) hu
      exact ⟨x, prods_swap hx, by rwa [mul_comm] at hle⟩
  · exact main h1 h1' h2 h2' hne hv

theorem mul_upper {a₁ b₁ a₂ b₂ : EReal} {u v : ℝ} (h1 : a₁ ≤ u) (h1' : u ≤ b₁) (h2 : a₂ ≤ v)
    (h2' : v ≤ b₂) (hne : ∃ x, Prods a₁ b₁ a₂ b₂ x) :
    ∃ x, Prods a₁ b₁ a₂ b₂ x ∧ ((u * v : ℝ) : EReal) ≤ x := by
  obtain ⟨x, hx, hle⟩ := mul_lower (a₁ := -b₁) (b₁ := -a₁) (u := -u)
    (by rw [EReal.coe_neg]; exact EReal.neg_le_neg_iff.2 h1')
    (by rw [EReal.coe_neg]; exact EReal.neg_le_neg_iff.2 h1) h2 h2'
    (hne.imp' (fun x => -x) fun x hx => prods_neg hx)
  refine ⟨-x, by simpa using prods_neg hx, ?_⟩
  have := EReal.neg_le_neg_iff.2 hle
  rw [← EReal.coe_neg] at this
  simpa using this

theorem mem_mul_list {a₁ b₁ a₂ b₂ x : EReal} :
    some x ∈ [npMul a₁ a₂, npMul a₁ b₂, npMul b₁ a₂, npMul b₁ b₂] ↔ Prods a₁ b₁ a₂ b₂ x := by
  simp [Prods, eq_comm]

theorem mul_contains {d₁ d₂ r : EReal × EReal} (h : mul d₁ d₂ = some r) {u v : ℝ} (h1 : d₁.1 ≤ u)
    (h1' : u ≤ d₁.2) (h2 : d₂.1 ≤ v) (h2' : v ≤ d₂.2) :
    r.1 ≤ ((u * v : ℝ) : EReal) ∧ ((u * v : ℝ) : EReal) ≤ r.2 := by
  unfold mul at h
  obtain ⟨x, hx⟩ := span_some h
  obtain ⟨y, hy, hle⟩ := mul_lower h1 h1' h2 h2' ⟨x, mem_mul_list.1 hx⟩
  obtain ⟨z, hz, hge⟩ := mul_upper h1 h1' h2 h2' ⟨x, mem_mul_list.1 hx⟩
  exact ⟨(span_bounds h (mem_mul_list.2 hy)).1.trans hle, hge.trans (span_bounds h (mem_mul_list.2 hz)).2⟩

/-! division -/

theorem npDiv_coe (r : ℝ) {t : ℝ} (ht : t ≠ 0) : npDiv r t = some ((r / t : ℝ) : EReal) := by
  unfold npDiv
  rw [if_neg (by exact_mod_cast ht), if_neg (by simp)]
  rw [EReal.coe_div]

theorem div_lower {a₁ b₁ a₂ b₂ : EReal} {u v : ℝ} (h1 : a₁ ≤ u) (h2 : a₂ ≤ v)
    (h2' : v ≤ b₂) (hv : 0 < v) (ha : 0 ≤ a₂) :
    ∃ x, (npDiv a₁ a₂ = some x ∨ npDiv a₁ b₂ = some x ∨ npDiv b₁ a₂ = some x ∨ npDiv b₁ b₂ = some x) ∧
      x ≤ ((u / v : ℝ) : EReal) := by
  induction a₁ using EReal.rec with
  | top => exact absurd h1 (by simp)
  | bot =>
    refine ⟨⊥, .inl ?_, bot_le⟩
    unfold npDiv
    by_cases h0 : a₂ = 0
    · rw [if_pos h0]; simp
    · have hpos : 0 < a₂ := lt_of_le_of_ne ha (Ne.symm h0)
      have ht : a₂ ≠ ⊤ := by rintro rfl; simp at h2
      have hb : a₂ ≠ ⊥ := by rintro rfl; simp at ha
      rw [if_neg h0, if_neg (by simp [ht, hb]), EReal.bot_div_of_pos_ne_top hpos ht]
  | coe r =>
    have h1 : r ≤ u := by exact_mod_cast h1
    rcases lt_or_ge r 0 with hr | hr
    · induction a₂ using EReal.rec with
      | top => simp at h2
      | bot => simp at ha
      | coe t =>
        have h2 : t ≤ v := by exact_mod_cast h2
        have ha : 0 ≤ t := by exact_mod_cast ha
        rcases ha.eq_or_lt with h0 | h0
        · subst h0
          refine ⟨⊥, .inl ?_, bot_le⟩
          unfold npDiv
          rw [if_pos (by simp), if_neg (by simpa using hr.le), if_pos (by exact_mod_cast hr)]
        · refine ⟨_, .inl (npDiv_coe r h0.ne'), ?_⟩
          have e1 : r / t ≤ r / v := by
            rw [div_le_div_iff₀ h0 hv]; nlinarith
          have e2 : r / v ≤ u / v := by gcongr
          exact_mod_cast e1.trans e2
    · have hu : 0 ≤ u / v := div_nonneg (hr.trans h1) hv.le
      induction b₂ using EReal.rec with
      | bot => simp at h2'
      | top =>
        refine ⟨0, .inr (.inl ?_), by exact_mod_cast hu⟩
        unfold npDiv
        rw [if_neg (by simp), if_neg (by simp), EReal.div_top]
      | coe t =>
        have h2' : v ≤ t := by exact_mod_cast h2'
        have ht : 0 < t := lt_of_lt_of_le hv h2'
        refine ⟨_, .inr (.inl (npDiv_coe r ht.ne')), ?_⟩
        have e1 : r / t ≤ r / v := by
          rw [div_le_div_iff₀ ht hv]; nlinarith
        have e2 : r / v ≤ u / v := by gcongr
        exact_mod_cast e1.trans e2

theorem npDiv_neg (x y : EReal) : npDiv (-x) y = (npDiv x y).map (- ·) := by
  unfold npDiv
  by_cases h0 : y = 0
  · rw [if_pos h0, if_pos h0]
    rcases lt_trichotomy x 0 with h | h | h
    · have h' : 0 < -x := by simpa using EReal.neg_lt_neg_iff.2 h
      rw [if_pos h', if_neg (not_lt.2 h.le), if_pos h]; simp
    · subst h; simp
    · have h' : -x < 0 := by simpa using EReal.neg_lt_neg_iff.2 h
      rw [if_neg (not_lt.2 h'.le), if_pos h', if_pos h]; simp
  · rw [if_neg h0, if_neg h0]
    simp only [EReal.neg_eq_top_iff, EReal.neg_eq_bot_iff]
    by_cases h1 : (x = ⊤ ∨ x = ⊥) ∧ (y = ⊤ ∨ y = ⊥)
    · rw [if_pos h1, if_pos ⟨h1.1.symm, h1.2⟩]; rfl
    · rw [if_neg h1, if_neg (fun h' => h1 ⟨h'.1.symm, h'.2⟩), div_eq_mul_inv, neg_mul, ← div_eq_mul_inv]; rfl

theorem npDiv_neg_right (x : EReal) {y : EReal} (hy : y ≠ 0) :
    npDiv x (-y) = (npDiv x y).map (- ·) := by
  unfold npDiv
  rw [if_neg hy, if_neg (by rwa [EReal.neg_eq_zero_iff])]
  simp only [EReal.neg_eq_top_iff, EReal.neg_eq_bot_iff]
  by_cases h1 : (x = ⊤ ∨ x = ⊥) ∧ (y = ⊤ ∨ y = ⊥)
  · rw [if_pos h1, if_pos ⟨h1.1, h1.2.symm⟩]; rfl
  · rw [if_neg h1, if_neg (fun h' => h1 ⟨h'.1, h'.2.symm⟩), div_eq_mul_inv, EReal.inv_neg, mul_neg,
      ← div_eq_mul_inv]; rfl

/-- the quotients of ends -/
def Quots (a₁ b₁ a₂ b₂ x : EReal) : Prop :=
  npDiv a₁ a₂ = some x ∨ npDiv a₁ b₂ = some x ∨ npDiv b₁ a₂ = some x ∨ npDiv b₁ b₂ = some x

theorem div_both {a₁ b₁ a₂ b₂ : EReal} {u v : ℝ} (h1 : a₁ ≤ u) (h1' : u ≤ b₁) (h2 : a₂ ≤ v)
    (h2' : v ≤ b₂) (hv : 0 < v) (ha : 0 ≤ a₂) :
    (∃ x, Quots a₁ b₁ a₂ b₂ x ∧ x ≤ ((u / v : ℝ) : EReal)) ∧
      ∃ x, Quots a₁ b₁ a₂ b₂ x ∧ ((u / v : ℝ) : EReal) ≤ x := by
  refine ⟨div_lower h1 h2 h2' hv ha, ?_⟩
  obtain ⟨x, hx, hle⟩ := div_lower (a₁ := -b₁) (b₁ := -a₁) (u := -u)
    (by rw [EReal.coe_neg]; exact EReal.neg_le_neg_iff.2 h1') h2 h2' hv ha
  refine ⟨-x, ?_, ?_⟩
  · simp only [npDiv_neg, Option.map_eq_some_iff] at hx
    unfold Quots
    rcases hx with ⟨y, hy, rfl⟩ | ⟨y, hy, rfl⟩ | ⟨y, hy, rfl⟩ | ⟨y, hy, rfl⟩ <;> simp [hy]
  · have := EReal.neg_le_neg_iff.2 hle
    rw [← EReal.coe_neg] at this
    rwa [neg_div, neg_neg] at this

theorem mem_div_list {d₁ d₂ : EReal × EReal} {x : EReal} (h : Quots d₁.1 d₁.2 d₂.1 d₂.2 x) :
    some x ∈ (withZero d₁).flatMap fun x => (withZero d₂).map fun y => npDiv x y := by
  have m : ∀ d : EReal × EReal, d.1 ∈ withZero d ∧ d.2 ∈ withZero d := by
    intro d; unfold withZero; split <;> simp
  simp only [List.mem_flatMap, List.mem_map]
  rcases h with h | h | h | h
  · exact ⟨_, (m d₁).1, _, (m d₂).1, h⟩
  · exact ⟨_, (m d₁).1, _, (m d₂).2, h⟩
  · exact ⟨_, (m d₁).2, _, (m d₂).1, h⟩
  · exact ⟨_, (m d₁).2, _, (m d₂).2, h⟩

theorem div_contains {d₁ d₂ r : EReal × EReal} (h : div d₁ d₂ = some r) {u v : ℝ} (h1 : d₁.1 ≤ u)
    (h1' : u ≤ d₁.2) (h2 : d₂.1 ≤ v) (h2' : v ≤ d₂.2) (hv : v ≠ 0) (h0 : 0 ≤ d₂.1 ∨ d₂.2 < 0) :
    r.1 ≤ ((u / v : ℝ) : EReal) ∧ ((u / v : ℝ) : EReal) ≤ r.2 := by
  unfold div at h
  have key : (∃ x, Quots d₁.1 d₁.2 d₂.1 d₂.2 x ∧ x ≤ ((u / v : ℝ) : EReal)) ∧
      ∃ x, Quots d₁.1 d₁.2 d₂.1 d₂.2 x ∧ ((u / v : ℝ) : EReal) ≤ x := by
    rcases h0 with h0 | h0
    · have : 0 < v := lt_of_le_of_ne (by exact_mod_cast h0.trans h2) (Ne.symm hv)
      exact div_both h1 h1' h2 h2' this h0
    · have hv' : v < 0 := by exact_mod_cast lt_of_le_of_lt h2' h0
      have ha0 : d₂.1 < 0 := lt_of_le_of_lt (h2.trans h2') h0
      have hb : 0 ≤ -d₂.2 := by simpa using EReal.neg_le_neg_iff.2 h0.le
      have hconv : ∀ x, Quots d₁.1 d₁.2 (-d₂.2) (-d₂.1) x → Quots d₁.1 d₁.2 d₂.1 d₂.2 (-x) := by
        intro x hx
        unfold Quots at hx
        simp only [npDiv_neg_right _ h0.ne, npDiv_neg_right _ ha0.ne, Option.map_eq_some_iff] at hx
        unfold Quots
        rcases hx with ⟨y, hy, rfl⟩ | ⟨y, hy, rfl⟩ | ⟨y, hy, rfl⟩ | ⟨y, hy, rfl⟩ <;> simp [hy]
      obtain ⟨⟨x, hx, hle⟩, y, hy, hge⟩ := div_both (v := -v) h1 h1'
        (a₂ := -d₂.2) (b₂ := -d₂.1) (by rw [EReal.coe_neg]; exact EReal.neg_le_neg_iff.2 h2')
        (by rw [EReal.coe_neg]; exact EReal.neg_le_neg_iff.2 h2) (by linarith) hb
      refine ⟨⟨-y, hconv y hy, ?_⟩, ⟨-x, hconv x hx, ?_⟩⟩
      · have := EReal.neg_le_neg_iff.2 hge
        rwa [← EReal.coe_neg, div_neg, neg_neg] at this
      · have := EReal.neg_le_neg_iff.2 hle
        rwa [← EReal.coe_neg, div_neg, neg_neg] at this
  obtain ⟨⟨x, hx, hle⟩, y, hy, hge⟩ := key
  exact ⟨(span_bounds h (mem_div_list hx)).1.trans hle, hge.trans (span_bounds h (mem_div_list hy)).2⟩

theorem sum_contains {d₁ d₂ : EReal × EReal} {u v : ℝ} (h1 : d₁.1 ≤ u)
    (h1' : u ≤ d₁.2) (h2 : d₂.1 ≤ v) (h2' : v ≤ d₂.2) :
    (sum d₁ d₂).1 ≤ ((u + v : ℝ) : EReal) ∧ ((u + v : ℝ) : EReal) ≤ (sum d₁ d₂).2 := by
  rw [EReal.coe_add]
  exact ⟨add_le_add h1 h2, add_le_add h1' h2'⟩

theorem shiftScale_contains {d : EReal × EReal} {u : ℝ} (h1 : d.1 ≤ u) (h1' : u ≤ d.2) (sh sc : ℝ) :
    (shiftScale d sh sc).1 ≤ ((sc * u + sh : ℝ) : EReal) ∧
      ((sc * u + sh : ℝ) : EReal) ≤ (shiftScale d sh sc).2 := by
  simp only [shiftScale]
  rw [EReal.coe_add, EReal.coe_mul, mul_comm (sc : EReal)]
  rcases le_total 0 sc with h | h
  · have h' : (0 : EReal) ≤ sc := by exact_mod_cast h
    exact ⟨(min_le_left _ _).trans (add_le_add (mul_le_mul_of_nonneg_right h1 h') le_rfl),
      (add_le_add (mul_le_mul_of_nonneg_right h1' h') le_rfl).trans (le_max_right _ _)⟩
  · have h' : (0 : EReal) ≤ ((-sc : ℝ) : EReal) := by
      have : 0 ≤ -sc := by linarith
      exact_mod_cast this
    have k : ∀ {x y : EReal}, x ≤ y → y * sc ≤ x * sc := by
      intro x y hxy
      have := mul_le_mul_of_nonneg_right hxy h'
      rw [EReal.coe_neg, mul_neg, mul_neg] at this
      exact EReal.neg_le_neg_iff.1 this
    exact ⟨(min_le_right _ _).trans (add_le_add (k h1') le_rfl),
      (add_le_add (k h1) le_rfl).trans (le_max_left _ _)⟩

end Range
end Pacal
