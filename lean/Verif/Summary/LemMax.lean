import Verif.Summary.Spec
import Verif.Push.Fold

/-! Lemmas for `Verif.Summary.PropsMode`. -/

namespace Pacal.Summary
open Filter Topology Set

theorem call_fin {pole : Pole} {a b : ℝ} {f : ℝ → ℝ} {x : ℝ} (h : x ∈ Icc a b) : (Seg.fin pole a b f).call x = f x :=
  if_pos ⟨extFin_le.2 h.1, extFin_le.2 h.2⟩

theorem call_const {a b c x : ℝ} (h : x ∈ Icc a b) : (Seg.const a b c).call x = c :=
  if_pos ⟨extFin_le.2 h.1, extFin_le.2 h.2⟩

theorem call_minf {b : ℝ} {f : ℝ → ℝ} {x : ℝ} (h : x ≤ b) : (Seg.minf b f).call x = f x :=
  if_pos ⟨bot_le, extFin_le.2 h⟩

theorem call_pinf {a : ℝ} {f : ℝ → ℝ} {x : ℝ} (h : a ≤ x) : (Seg.pinf a f).call x = f x :=
  if_pos ⟨extFin_le.2 h, by simp [Seg.hi, Ext.pinf, Ext.fin]⟩

/-- the piece's result is right -/
def MaxOK (s : Seg ℝ) (r : EReal × ℝ) : Prop := Attains s r.1 r.2 ∧ ∀ y w, Attains s y w → w ≤ r.2

def MinOK (s : Seg ℝ) (r : EReal × ℝ) : Prop := Attains s r.1 r.2 ∧ ∀ y w, Attains s y w → r.2 ≤ w

theorem better_cases (lt : ℝ → ℝ → Prop) (p q : EReal × ℝ) : (lt p.2 q.2 ∧ better lt p q = q) ∨ (¬ lt p.2 q.2 ∧ better lt p q = p) := by
  unfold better; split_ifs with h <;> simp [h]

theorem segMaximum_ok {P : Search} {s : Seg ℝ} (h : Searched P s) : ∃ r, segMaximum P s = some r ∧ MaxOK s r := by
  match s, h with
  | .fin .left a b f, h =>
    obtain ⟨h1, h2⟩ := h
    refine ⟨_, rfl, ⟨_, rfl, h1.1, h1.2, rfl⟩, ?_⟩
    rintro - w ⟨y, -, ha, hb, rfl⟩
    have := h2 y ⟨ha, hb⟩
    simp only [call_fin h1, call_fin (show y ∈ Icc a b from ⟨ha, hb⟩)] at this
    linarith
  | .fin .none a b f, h =>
    obtain ⟨h1, h2⟩ := h
    refine ⟨_, rfl, ⟨_, rfl, h1.1, h1.2, rfl⟩, ?_⟩
    rintro - w ⟨y, -, ha, hb, rfl⟩
    have := h2 y ⟨ha, hb⟩
    simp only [call_fin h1, call_fin (show y ∈ Icc a b from ⟨ha, hb⟩)] at this
    simpa using this
  | .fin .right a b f, h =>
    obtain ⟨⟨h1, h2⟩, h3⟩ := h
    have he : a ≤ a + 1e-14 := by norm_num
    have h1' : P.M (fun x => -(Seg.fin .right a b f).call x) (a + 1e-14) b ∈ Icc a b := ⟨he.trans h1.1, h1.2⟩
    refine ⟨_, rfl, ⟨_, rfl, h1'.1, h1'.2, rfl⟩, ?_⟩
    have key : ∀ y ∈ Icc (a + 1e-14) b, f y ≤ f (P.M (fun x => -(Seg.fin .right a b f).call x) (a + 1e-14) b) := by
      intro y hy
      have := h2 y hy
      simp only [call_fin h1', call_fin (show y ∈ Icc a b from ⟨he.trans hy.1, hy.2⟩)] at this
      simpa using this
    rintro - w ⟨y, -, ha, hb, rfl⟩
    rcases le_total (a + 1e-14) y with hy | hy
    · exact key y ⟨hy, hb⟩
    · obtain ⟨z, hz, hyz⟩ := h3 y ⟨ha, hy⟩
      exact hyz.trans (key z hz)
  | .const a b c, h =>
    obtain ⟨h1, h2⟩ := h
    refine ⟨_, rfl, ⟨_, rfl, h1.1, h1.2, rfl⟩, ?_⟩
    rintro - w ⟨y, -, ha, hb, rfl⟩
    exact le_rfl
  | .dirac a m, _ => exact ⟨_, rfl, ⟨rfl, rfl⟩, fun y w h => h.2.le⟩
  | .minf b f, h =>
    obtain ⟨⟨v, hv⟩, L, hL, ⟨h1, h2⟩, h3⟩ := h
    have key : ∀ y ≤ b, f y ≤ f (P.M (fun x => -(Seg.minf b f).call x) L b) := by
      have k1 : ∀ y ∈ Icc L b, f y ≤ f (P.M (fun x => -(Seg.minf b f).call x) L b) := by
        intro y hy
        have := h2 y hy
        simp only [call_minf h1.2, call_minf hy.2] at this
        simpa using this
      intro y hy
      rcases le_total L y with h | h
      · exact k1 y ⟨h, hy⟩
      · obtain ⟨z, hz, hyz⟩ := h3 y h
        exact hyz.trans (k1 z hz)
    set x := P.M (fun x => -(Seg.minf b f).call x) L b with hx
    have hvx : v ≤ f x := le_of_tendsto hv ((eventually_le_atBot b).mono key)
    refine ⟨_, by rw [segMaximum, hL]; rfl, ?_⟩
    beta_reduce
    simp only [← hx, call_minf h1.2]
    have hlo : (Seg.minf b f).valLo = v := hv.limUnder_eq
    have hhi : (Seg.minf b f).valHi = f b := rfl
    rw [hlo, hhi]
    have hall : ∀ y w, Attains (.minf b f) y w → w ≤ f x := by
      rintro y w (⟨y, rfl, hy, rfl⟩ | ⟨rfl, hw⟩)
      · exact key y hy
      · exact (tendsto_nhds_unique hw hv).le.trans hvx
    set e := better (fun u v => ¬ u ≥ v) ((b : EReal), f b) (⊥, v) with he
    have hea : Attains (.minf b f) e.1 e.2 := by
      rcases better_cases (fun u v => ¬ u ≥ v) ((b : EReal), f b) (⊥, v) with ⟨-, h⟩ | ⟨-, h⟩
      · rw [he, h]; exact .inr ⟨rfl, hv⟩
      · rw [he, h]; exact .inl ⟨b, rfl, le_rfl, rfl⟩
    rcases better_cases (fun u v => v > u) e ((x : EReal), f x) with ⟨-, h⟩ | ⟨h', h⟩
    · rw [h]; exact ⟨.inl ⟨x, rfl, h1.2, rfl⟩, hall⟩
    · rw [h]; exact ⟨hea, fun y w hw => (hall y w hw).trans (not_lt.1 h')⟩
  | .pinf a f, h =>
    obtain ⟨⟨v, hv⟩, R, hR, ⟨h1, h2⟩, h3⟩ := h
    have key : ∀ y, a ≤ y → f y ≤ f (P.M (fun x => -(Seg.pinf a f).call x) a R) := by
      have k1 : ∀ y ∈ Icc a R, f y ≤ f (P.M (fun x => -(Seg.pinf a f).call x) a R) := by
        intro y hy
        have := h2 y hy
        simp only [call_pinf h1.1, call_pinf hy.1] at this
        simpa using this
      intro y hy
      rcases le_total R y with h | h
      · obtain ⟨z, hz, hyz⟩ := h3 y h
        exact hyz.trans (k1 z hz)
      · exact k1 y ⟨hy, h⟩
    set x := P.M (fun x => -(Seg.pinf a f).call x) a R with hx
    have hvx : v ≤ f x := le_of_tendsto hv ((eventually_ge_atTop a).mono key)
    refine ⟨_, by rw [segMaximum, hR]; rfl, ?_⟩
    beta_reduce
    simp only [← hx, call_pinf h1.1]
    have hlo : (Seg.pinf a f).valHi = v := hv.limUnder_eq
    have hhi : (Seg.pinf a f).valLo = f a := rfl
    rw [hlo, hhi]
    have hall : ∀ y w, Attains (.pinf a f) y w → w ≤ f x := by
      rintro y w (⟨y, rfl, hy, rfl⟩ | ⟨rfl, hw⟩)
      · exact key y hy
      · exact (tendsto_nhds_unique hw hv).le.trans hvx
    set e := better (fun u v => ¬ u ≥ v) ((a : EReal), f a) (⊤, v) with he
    have hea : Attains (.pinf a f) e.1 e.2 := by
      rcases better_cases (fun u v => ¬ u ≥ v) ((a : EReal), f a) (⊤, v) with ⟨-, h⟩ | ⟨-, h⟩
      · rw [he, h]; exact .inr ⟨rfl, hv⟩
      · rw [he, h]; exact .inl ⟨a, rfl, le_rfl, rfl⟩
    rcases better_cases (fun u v => v > u) e ((x : EReal), f x) with ⟨-, h⟩ | ⟨h', h⟩
    · rw [h]; exact ⟨.inl ⟨x, rfl, h1.1, rfl⟩, hall⟩
    · rw [h]; exact ⟨hea, fun y w hw => (hall y w hw).trans (not_lt.1 h')⟩

theorem segMinimum_ok {P : Search} {s : Seg ℝ} (h : SearchedMin P s) : ∃ r, segMinimum P s = some r ∧ MinOK s r := by
  have fin_case : ∀ {pole a b f}, Finds P.M (Seg.fin pole a b f).call a b →
      MinOK (.fin pole a b f) (((P.M (Seg.fin pole a b f).call a b : ℝ) : EReal), f (P.M (Seg.fin pole a b f).call a b)) := by
    rintro pole a b f ⟨h1, h2⟩
    refine ⟨⟨_, rfl, h1.1, h1.2, rfl⟩, ?_⟩
    rintro - w ⟨y, -, ha, hb, rfl⟩
    have := h2 y ⟨ha, hb⟩
    rwa [call_fin h1, call_fin (show y ∈ Icc a b from ⟨ha, hb⟩)] at this
  match s, h with
  | .fin .left a b f, h => exact ⟨_, rfl, fin_case h⟩
  | .fin .none a b f, h => exact ⟨_, rfl, fin_case h⟩
  | .fin .right a b f, h =>
    obtain ⟨⟨h1, h2⟩, h3⟩ := h
    have he : a ≤ a + 1e-14 := by norm_num
    have h1' : P.M (Seg.fin .right a b f).call (a + 1e-14) b ∈ Icc a b := ⟨he.trans h1.1, h1.2⟩
    refine ⟨_, rfl, ⟨_, rfl, h1'.1, h1'.2, rfl⟩, ?_⟩
    have key : ∀ y ∈ Icc (a + 1e-14) b, f (P.M (Seg.fin .right a b f).call (a + 1e-14) b) ≤ f y := by
      intro y hy
      have := h2 y hy
      rwa [call_fin h1', call_fin (show y ∈ Icc a b from ⟨he.trans hy.1, hy.2⟩)] at this
    rintro - w ⟨y, -, ha, hb, rfl⟩
    rcases le_total (a + 1e-14) y with hy | hy
    · exact key y ⟨hy, hb⟩
    · obtain ⟨z, hz, hyz⟩ := h3 y ⟨ha, hy⟩
      exact (key z hz).trans hyz
  | .const a b c, h =>
    obtain ⟨h1, h2⟩ := h
    refine ⟨_, rfl, ⟨_, rfl, h1.1, h1.2, rfl⟩, ?_⟩
    rintro - w ⟨y, -, ha, hb, rfl⟩
    exact le_rfl
  | .dirac a m, _ => exact ⟨_, rfl, ⟨rfl, rfl⟩, fun y w h => h.2.ge⟩
  | .minf b f, h =>
    obtain ⟨v, hv, L, hL, ⟨h1, h2⟩, h3⟩ := h
    set x := P.M (Seg.minf b f).call L b with hx
    have k1 : ∀ y ∈ Icc L b, f x ≤ f y := by
      intro y hy
      have := h2 y hy
      rwa [call_minf h1.2, call_minf hy.2] at this
    have key : ∀ y ≤ b, v ≤ f y ∨ f x ≤ f y := by
      intro y hy
      rcases le_total L y with h | h
      · exact .inr (k1 y ⟨h, hy⟩)
      · rcases h3 y h with h | ⟨z, hz, hyz⟩
        · exact .inl h
        · exact .inr ((k1 z hz).trans hyz)
    refine ⟨_, by rw [segMinimum, hL]; rfl, ?_⟩
    beta_reduce
    simp only [← hx, call_minf h1.2]
    have hlo : (Seg.minf b f).valLo = v := hv.limUnder_eq
    have hhi : (Seg.minf b f).valHi = f b := rfl
    rw [hlo, hhi]
    have hall : ∀ y w, Attains (.minf b f) y w → min v (f x) ≤ w := by
      rintro y w (⟨y, rfl, hy, rfl⟩ | ⟨rfl, hw⟩)
      · exact min_le_iff.2 (key y hy)
      · exact (min_le_left _ _).trans (tendsto_nhds_unique hw hv).ge
    set e := better (fun u v => ¬ u ≤ v) ((b : EReal), f b) (⊥, v) with he
    have hea : Attains (.minf b f) e.1 e.2 ∧ e.2 ≤ v := by
      rcases better_cases (fun u v => ¬ u ≤ v) ((b : EReal), f b) (⊥, v) with ⟨-, h⟩ | ⟨h', h⟩
      · rw [he, h]; exact ⟨.inr ⟨rfl, hv⟩, le_rfl⟩
      · rw [he, h]; exact ⟨.inl ⟨b, rfl, le_rfl, rfl⟩, not_not.1 h'⟩
    rcases better_cases (fun u v => v < u) e ((x : EReal), f x) with ⟨h', h⟩ | ⟨h', h⟩
    · rw [h]; exact ⟨.inl ⟨x, rfl, h1.2, rfl⟩, fun y w hw => (le_min (h'.le.trans hea.2) le_rfl).trans (hall y w hw)⟩
    · rw [h]; exact ⟨hea.1, fun y w hw => (le_min hea.2 (not_lt.1 h')).trans (hall y w hw)⟩
  | .pinf a f, h =>
    obtain ⟨v, hv, R, hR, ⟨h1, h2⟩, h3⟩ := h
    set x := P.M (Seg.pinf a f).call a R with hx
    have k1 : ∀ y ∈ Icc a R, f x ≤ f y := by
      intro y hy
      have := h2 y hy
      rwa [call_pinf h1.1, call_pinf hy.1] at this
    have key : ∀ y, a ≤ y → v ≤ f y ∨ f x ≤ f y := by
      intro y hy
      rcases le_total R y with h | h
      · rcases h3 y h with h | ⟨z, hz, hyz⟩
        · exact .inl h
        · exact .inr ((k1 z hz).trans hyz)
      · exact .inr (k1 y ⟨hy, h⟩)
    refine ⟨_, by rw [segMinimum, hR]; rfl, ?_⟩
    beta_reduce
    simp only [← hx, call_pinf h1.1]
    have hlo : (Seg.pinf a f).valHi = v := hv.limUnder_eq
    have hhi : (Seg.pinf a f).valLo = f a := rfl
    rw [hlo, hhi]
    have hall : ∀ y w, Attains (.pinf a f) y w → min v (f x) ≤ w := by
      rintro y w (⟨y, rfl, hy, rfl⟩ | ⟨rfl, hw⟩)
      · exact min_le_iff.2 (key y hy)
      · exact (min_le_left _ _).trans (tendsto_nhds_unique hw hv).ge
    set e := better (fun u v => ¬ u ≤ v) ((a : EReal), f a) (⊤, v) with he
    have hea : Attains (.pinf a f) e.1 e.2 ∧ e.2 ≤ v := by
      rcases better_cases (fun u v => ¬ u ≤ v) ((a : EReal), f a) (⊤, v) with ⟨-, h⟩ | ⟨h', h⟩
      · rw [he, h]; exact ⟨.inr ⟨rfl, hv⟩, le_rfl⟩
      · rw [he, h]; exact ⟨.inl ⟨a, rfl, le_rfl, rfl⟩, not_not.1 h'⟩
    rcases better_cases (fun u v => v < u) e ((x : EReal), f x) with ⟨h', h⟩ | ⟨h', h⟩
    · rw [h]; exact ⟨.inl ⟨x, rfl, h1.1, rfl⟩, fun y w hw => (le_min (h'.le.trans hea.2) le_rfl).trans (hall y w hw)⟩
    · rw [h]; exact ⟨hea.1, fun y w hw => (le_min hea.2 (not_lt.1 h')).trans (hall y w hw)⟩

/-! ### the loops over the pieces -/

theorem maxLoop_ok {P : Search} : ∀ (l : PF ℝ) (st : Option (EReal × ℝ)), (∀ s ∈ l, Searched P s) → (l ≠ [] ∨ st ≠ none) →
    ∃ r, maxLoop P l st = some (some r) ∧ (st = some r ∨ ∃ s ∈ l, Attains s r.1 r.2) ∧
      (∀ p, st = some p → p.2 ≤ r.2) ∧ ∀ s ∈ l, ∀ y w, Attains s y w → w ≤ r.2
  | [], st, _, h => by
    obtain ⟨p, rfl⟩ := Option.ne_none_iff_exists'.1 (h.resolve_left (by simp))
    exact ⟨p, rfl, .inl rfl, fun q hq => by cases hq; rfl, by simp⟩
  | s :: l, st, hs, _ => by
    obtain ⟨r, hr, hr1, hr2⟩ := segMaximum_ok (hs s (by simp))
    obtain ⟨st', hst', hst1, hst2, hst3⟩ : ∃ st' : EReal × ℝ, keep (fun m mi => m < mi) st r = st' ∧ (st = some st' ∨ st' = r) ∧
        (∀ p, st = some p → p.2 ≤ st'.2) ∧ r.2 ≤ st'.2 := by
      cases st with
      | none => exact ⟨r, rfl, .inr rfl, by simp, le_rfl⟩
      | some p =>
        by_cases h : p.2 < r.2
        · exact ⟨r, if_pos h, .inr rfl, fun q hq => by cases hq; exact h.le, le_rfl⟩
        · exact ⟨p, if_neg h, .inl rfl, fun q hq => by cases hq; rfl, not_lt.1 h⟩
    obtain ⟨q, h1, h2, h3, h4⟩ := maxLoop_ok (P := P) l (some st') (fun t ht => hs t (List.mem_cons_of_mem _ ht)) (.inr (by simp))
    refine ⟨q, ?_, ?_, fun p hp => (hst2 p hp).trans (h3 _ rfl), ?_⟩
    · rw [maxLoop, hr, Option.bind_some]
      rw [hst', h1]
    · rcases h2 with h2 | ⟨t, ht, ha⟩
      · cases h2
        rcases hst1 with h | rfl
        · exact .inl h
        · exact .inr ⟨s, by simp, hr1⟩
      · exact .inr ⟨t, List.mem_cons_of_mem _ ht, ha⟩
    · intro t ht y w hw
      rcases List.mem_cons.1 ht with rfl | ht
      · exact (hr2 y w hw).trans (hst3.trans (h3 _ rfl))
      · exact h4 t ht y w hw

theorem minLoop_ok {P : Search} : ∀ (l : PF ℝ) (st : Option (EReal × ℝ)), (∀ s ∈ l, SearchedMin P s) → (l ≠ [] ∨ st ≠ none) →
    ∃ r, minLoop P l st = some (some r) ∧ (st = some r ∨ ∃ s ∈ l, Attains s r.1 r.2) ∧
      (∀ p, st = some p → r.2 ≤ p.2) ∧ ∀ s ∈ l, ∀ y w, Attains s y w → r.2 ≤ w
  | [], st, _, h => by
    obtain ⟨p, rfl⟩ := Option.ne_none_iff_exists'.1 (h.resolve_left (by simp))
    exact ⟨p, rfl, .inl rfl, fun q hq => by cases hq; rfl, by simp⟩
  | s :: l, st, hs, _ => by
    obtain ⟨r, hr, hr1, hr2⟩ := segMinimum_ok (hs s (by simp))
    obtain ⟨st', hst', hst1, hst2, hst3⟩ : ∃ st' : EReal × ℝ, keep (fun m mi => m > mi) st r = st' ∧ (st = some st' ∨ st' = r) ∧
        (∀ p, st = some p → st'.2 ≤ p.2) ∧ st'.2 ≤ r.2 := by
      cases st with
      | none => exact ⟨r, rfl, .inr rfl, by simp, le_rfl⟩
      | some p =>
        by_cases h : p.2 > r.2
        · exact ⟨r, if_pos h, .inr rfl, fun q hq => by cases hq; exact h.le, le_rfl⟩
        · exact ⟨p, if_neg h, .inl rfl, fun q hq => by cases hq; rfl, not_lt.1 h⟩
    obtain ⟨q, h1, h2, h3, h4⟩ := minLoop_ok (P := P) l (some st') (fun t ht => hs t (List.mem_cons_of_mem _ ht)) (.inr (by simp))
    refine ⟨q, ?_, ?_, fun p hp => (h3 _ rfl).trans (hst2 p hp), ?_⟩
    · rw [minLoop, hr, Option.bind_some]
      rw [hst', h1]
    · rcases h2 with h2 | ⟨t, ht, ha⟩
      · cases h2
        rcases hst1 with h | rfl
        · exact .inl h
        · exact .inr ⟨s, by simp, hr1⟩
      · exact .inr ⟨t, List.mem_cons_of_mem _ ht, ha⟩
    · intro t ht y w hw
      rcases List.mem_cons.1 ht with rfl | ht
      · exact (h3 _ rfl).trans (hst3.trans (hr2 y w hw))
      · exact h4 t ht y w hw

end Pacal.Summary
