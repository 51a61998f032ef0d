import Verif.Copula.Families

/-!
The other copulas, marginals, elimination and conditions.
-/

namespace Pacal.Copula
open Set Filter Topology

theorem Provided.regular {g : Gen} (hg : Provided g) : g.Regular := by
  rcases hg with ⟨t, h, rfl⟩ | ⟨t, h, rfl⟩ | ⟨t, h, rfl⟩
  · exact clayton_regular h
  · exact gumbel_regular h
  · exact frank_regular h

theorem sum_le_length {X : List ℝ} (hX : InCube X) : X.sum ≤ X.length := by
  have : X.sum ≤ X.length • (1 : ℝ) := List.sum_le_card_nsmul X 1 fun y hy => (hX y hy).2
  rwa [nsmul_eq_mul, mul_one] at this

theorem InCube.tail {x : ℝ} {X : List ℝ} (h : InCube (x :: X)) : InCube X := fun y hy => h y (List.mem_cons_of_mem _ hy)

/-- every coordinate is at least the sum minus the number of the others -/
theorem sum_le_mem {X : List ℝ} (hX : InCube X) {x : ℝ} (hx : x ∈ X) : X.sum - (X.length - 1) ≤ x := by
  induction X with
  | nil => simp at hx
  | cons y X ih =>
    simp only [List.sum_cons, List.length_cons, Nat.cast_add, Nat.cast_one]
    rcases List.mem_cons.1 hx with rfl | hx
    · have := sum_le_length hX.tail
      linarith
    · have := ih hX.tail hx
      have := (hX y (List.mem_cons_self ..)).2
      linarith

/-! ### independence -/

theorem piCcdf_eq (X : List ℝ) : piCcdf X = X.prod := by
  have := foldl_prod (fun x : ℝ => x) X 1
  rw [one_mul, List.map_id'] at this
  exact this

theorem prod_mem {X : List ℝ} (hX : InCube X) : 0 ≤ X.prod ∧ X.prod ≤ 1 ∧ X.sum - X.length + 1 ≤ X.prod := by
  induction X with
  | nil => simp
  | cons x X ih =>
    obtain ⟨h1, h2, h3⟩ := ih hX.tail
    obtain ⟨a, b⟩ := hX x (List.mem_cons_self ..)
    simp only [List.prod_cons, List.sum_cons, List.length_cons, Nat.cast_add, Nat.cast_one]
    refine ⟨mul_nonneg a h1, mul_le_one₀ b h1 h2, ?_⟩
    nlinarith [mul_nonneg (sub_nonneg.2 b) (sub_nonneg.2 h2)]

theorem prod_le_mem {X : List ℝ} (hX : InCube X) {x : ℝ} (hx : x ∈ X) : X.prod ≤ x := by
  induction X with
  | nil => simp at hx
  | cons y X ih =>
    obtain ⟨h1, h2, h3⟩ := prod_mem hX.tail
    obtain ⟨a, b⟩ := hX y (List.mem_cons_self ..)
    rw [List.prod_cons]
    rcases List.mem_cons.1 hx with rfl | hx
    · exact mul_le_of_le_one_right a h2
    · exact (mul_le_of_le_one_left h1 b).trans (ih hX.tail hx)

theorem prod_set_replicate (u : ℝ) : ∀ (d i : ℕ), i < d → ((List.replicate d (1 : ℝ)).set i u).prod = u
  | 0, _, h => absurd h (Nat.not_lt_zero _)
  | d + 1, 0, _ => by simp [List.replicate_succ]
  | d + 1, i + 1, h => by
    rw [List.replicate_succ, List.set_cons_succ, List.prod_cons, one_mul]
    exact prod_set_replicate u d i (Nat.lt_of_succ_lt_succ h)

theorem mixedDeriv_prod : ∀ (X : List ℝ) (c : ℝ), mixedDeriv (fun Y => c * Y.prod) X = c
  | [], c => by simp [mixedDeriv]
  | x :: X, c => by
    rw [mixedDeriv]
    have : (fun t => mixedDeriv (fun ys => c * (t :: ys).prod) X) = fun t => c * t := by
      funext t
      rw [← mixedDeriv_prod X (c * t)]
      congr 1
      funext Y
      rw [List.prod_cons, mul_assoc]
    rw [this, (show HasDerivAt (fun t => c * t) (c * 1) x from (hasDerivAt_id x).const_mul c).deriv, mul_one]

/-! ### minimum -/

theorem mfold_spec : ∀ (X : List ℝ) (m : ℝ),
    (X.foldl (fun mi xi => if xi < mi then xi else mi) m ≤ m) ∧
    (∀ x ∈ X, X.foldl (fun mi xi => if xi < mi then xi else mi) m ≤ x) ∧
    (X.foldl (fun mi xi => if xi < mi then xi else mi) m = m ∨ X.foldl (fun mi xi => if xi < mi then xi else mi) m ∈ X)
  | [], m => by simp
  | x :: X, m => by
    simp only [List.foldl_cons]
    obtain ⟨h1, h2, h3⟩ := mfold_spec X (if x < m then x else m)
    have hm : (if x < m then x else m) ≤ m ∧ (if x < m then x else m) ≤ x := by
      split_ifs with h
      · exact ⟨h.le, le_rfl⟩
      · exact ⟨le_rfl, not_lt.1 h⟩
    refine ⟨h1.trans hm.1, ?_, ?_⟩
    · intro y hy
      rcases List.mem_cons.1 hy with rfl | hy
      · exact h1.trans hm.2
      · exact h2 y hy
    · rcases h3 with h3 | h3
      · rw [h3]
        split_ifs with h
        · exact Or.inr (List.mem_cons_self ..)
        · exact Or.inl rfl
      · exact Or.inr (List.mem_cons_of_mem _ h3)

theorem mCcdf_spec (X : List ℝ) : mCcdf X ≤ 1 ∧ (∀ x ∈ X, mCcdf X ≤ x) ∧ (mCcdf X = 1 ∨ mCcdf X ∈ X) := by
  have := mfold_spec X (0 + 1)
  rw [zero_add] at this
  rw [mCcdf, zero_add]
  exact this

theorem mCcdf_two {u v : ℝ} (hu : u ≤ 1) (hv : v ≤ 1) : mCcdf [u, v] = min u v := by
  obtain ⟨-, h2, h3⟩ := mCcdf_spec [u, v]
  refine le_antisymm (le_min (h2 u (by simp)) (h2 v (by simp))) ?_
  rcases h3 with h3 | h3
  · rw [h3]
    exact (min_le_left _ _).trans hu
  · simp only [List.mem_cons, List.not_mem_nil, or_false] at h3
    rcases h3 with h3 | h3 <;> rw [h3]
    · exact min_le_left _ _
    · exact min_le_right _ _

/-! ### lower bound -/

theorem wCcdf_eq (X : List ℝ) : wCcdf X = max 0 (X.sum - 1) := by
  have h := foldl_sum (fun x : ℝ => x) X 0
  rw [zero_add, List.map_id'] at h
  simp only [wCcdf, h]
  split_ifs with h'
  · rw [max_eq_left h'.le]
  · rw [max_eq_right (not_lt.1 h')]

/-! ### two variables -/

theorem mixedDeriv_two (f : List ℝ → ℝ) (u v : ℝ) :
    mixedDeriv f [u, v] = deriv (fun t => deriv (fun r => f [t, r]) v) u := rfl

theorem mixed_const {f : List ℝ → ℝ} {u v a b c : ℝ}
    (h : ∀ᶠ t in 𝓝 u, ∀ᶠ r in 𝓝 v, f [t, r] = a + b * t + c * r) : mixedDeriv f [u, v] = 0 := by
  rw [mixedDeriv_two]
  have : (fun t => deriv (fun r => f [t, r]) v) =ᶠ[𝓝 u] fun _ => c := by
    filter_upwards [h] with t ht
    have e : (fun r => f [t, r]) =ᶠ[𝓝 v] fun r => a + b * t + c * r := ht
    rw [e.deriv_eq, (show HasDerivAt (fun r => a + b * t + c * r) (c * 1) v from
      ((hasDerivAt_id v).const_mul c).const_add (a + b * t)).deriv, mul_one]
  rw [this.deriv_eq, deriv_const]

/-- near a pair that satisfies a strict inequality between coordinates the inequality still holds -/
theorem near_two {u v : ℝ} {P : ℝ → ℝ → Prop} (h : ∀ᶠ p in 𝓝 (u, v), P p.1 p.2) : ∀ᶠ t in 𝓝 u, ∀ᶠ r in 𝓝 v, P t r := by
  rw [nhds_prod_eq] at h
  exact h.curry

theorem frank_val_two {theta : ℝ} (h : theta ≠ 0) {u v : ℝ} (hu : 0 ≤ u) (hu1 : u ≤ 1) (hv : 0 ≤ v) (hv1 : v ≤ 1) :
    (frank theta).val [u, v] = frank2dCcdf theta [u, v] := by
  have hr := frank_regular h
  have hE := fh_ne h one_pos
  have hpi : frank2dCcdf theta [u, v] = -(1 / theta) * Real.log (1 + fr theta u * fr theta v * fh theta 1) := by
    simp only [frank2dCcdf, List.foldl_cons, List.foldl_nil]
    congr 3
    rw [fr, fr]
    have e : Real.exp (-theta) - 1 = fh theta 1 := fh_one.symm
    have e1 : Real.exp (-theta * u) - 1 = fh theta u := by rw [fh]; ring_nf
    have e2 : Real.exp (-theta * v) - 1 = fh theta v := by rw [fh]; ring_nf
    rw [e, e1, e2]
    field_simp
  rw [hpi]
  rcases eq_or_lt_of_le hu with rfl | hu
  · rw [hr.val_zero (by simp), fr_zero]
    simp
  rcases eq_or_lt_of_le hv with rfl | hv
  · rw [hr.val_zero (by simp), fr_zero]
    simp
  rw [hr.val_pos (by simp [hu, hu1, hv, hv1]), frank_inv]
  simp only [List.map_cons, List.map_nil, List.sum_cons, List.sum_nil, add_zero]
  rw [neg_add, Real.exp_add, exp_fi h hu, exp_fi h hv, add_comm 1]
  ring

/-- densities of the classes for two variables -/
theorem frank2d_density {theta : ℝ} (h : theta ≠ 0) {u v : ℝ} (hu : 0 < u) (hu1 : u < 1) (hv : 0 < v) (hv1 : v < 1) :
    iteratedDeriv 2 (frank theta).inv ([u, v].map (frank theta).fi).sum * ([u, v].map fun x => deriv (frank theta).fi x).prod
      = frank2dCpdf theta [u, v] := by
  simp only [List.map_cons, List.map_nil, List.sum_cons, List.sum_nil, add_zero, List.prod_cons, List.prod_nil, mul_one]
  have hg := frank_generator h
  rw [frank_second h (add_pos (hg.pos hu hu1) (hg.pos hv hv1)), (frank_fi_deriv h hu).deriv, (frank_fi_deriv h hv).deriv,
    neg_add, Real.exp_add, exp_fi h hu, exp_fi h hv]
  have e0 := frank_arg_pos (theta := theta) (q := fr theta u * fr theta v) (mul_nonneg (fr_pos h hu).le (fr_pos h hv).le)
    (mul_le_one₀ (by rw [← fr_one h]; exact (fr_lt h hu1).le) (fr_pos h hv).le (by rw [← fr_one h]; exact (fr_lt h hv1).le))
  simp only [frank2dCpdf, List.foldl_cons, List.foldl_nil, List.length_cons, List.length_nil, zero_add, one_mul]
  have e : Real.exp (-theta) - 1 = fh theta 1 := fh_one.symm
  have e1 : Real.exp (-theta * u) - 1 = fh theta u := by rw [fh]; ring_nf
  have e2 : Real.exp (-theta * v) - 1 = fh theta v := by rw [fh]; ring_nf
  have e3 : Real.exp (-theta * (u + v)) = (fh theta u + 1) * (fh theta v + 1) := by
    rw [fh, fh, sub_add_cancel, sub_add_cancel, ← Real.exp_add]
    ring_nf
  rw [e, e1, e2, e3]
  have n1 := fh_ne h one_pos
  have n2 := fh_ne h hu
  have n3 := fh_ne h hv
  rw [fr, fr] at e0 ⊢
  have e4 : fh theta u / fh theta 1 * (fh theta v / fh theta 1) * fh theta 1 + 1 =
      (fh theta u * fh theta v + fh theta 1) / fh theta 1 := by
    field_simp
  rw [e4] at e0 ⊢
  have n4 : fh theta u * fh theta v + fh theta 1 ≠ 0 := by
    intro hc
    rw [hc, zero_div] at e0
    exact lt_irrefl _ e0
  have e5 : -fh theta 1 - -fh theta u * -fh theta v = -(fh theta u * fh theta v + fh theta 1) := by ring
  have e6 : (-(fh theta u * fh theta v + fh theta 1)) ^ (1 + 1) = (fh theta u * fh theta v + fh theta 1) ^ 2 := by ring
  rw [e5, e6]
  field_simp

theorem gumbel2d_density {theta : ℝ} (h : 1 ≤ theta) {u v : ℝ} (hu : 0 < u) (hu1 : u < 1) (hv : 0 < v) (hv1 : v < 1) :
    iteratedDeriv 2 (gumbel theta).inv ([u, v].map (gumbel theta).fi).sum * ([u, v].map fun x => deriv (gumbel theta).fi x).prod
      = gumbel2dCpdf theta [u, v] := by
  have hpos : 0 < theta := by linarith
  have hg := gumbel_generator h
  have hp : ∀ t : ℝ, 0 < t → t < 1 → (gumbel theta).fi t ^ (1 - 1 / theta) = (-Real.log t) ^ (theta - 1) := by
    intro t h0 h1
    have : 0 ≤ -Real.log t := by
      have := Real.log_neg h0 h1
      linarith
    show ((-Real.log t) ^ theta) ^ (1 - 1 / theta) = _
    rw [← Real.rpow_mul this]
    congr 1
    field_simp
  simp only [List.map_cons, List.map_nil, List.sum_cons, List.sum_nil, add_zero, List.prod_cons, List.prod_nil, mul_one,
    gumbel2dCpdf, List.foldl_cons, List.foldl_nil, zero_add]
  rw [gumbel_second hpos (add_pos (hg.pos hu hu1) (hg.pos hv hv1)), (gumbel_fi_deriv hu hu1).deriv,
    (gumbel_fi_deriv hv hv1).deriv, hp u hu hu1, hp v hv hv1]
  ring

theorem gumbel2d_val {theta : ℝ} (h : 1 ≤ theta) {X : List ℝ} (hX : InCube X) :
    gumbel2dCcdf theta X = (gumbel theta).val X := by
  have hr := gumbel_regular h
  rw [gumbel2dCcdf, Gen.val]
  by_cases h0 : 0 ∈ X
  · rw [hr.sum_zero h0, if_neg (by simp)]
  · rw [hr.sum_pos (pos_of_not_mem hX h0), if_neg]
    rw [not_lt]
    exact_mod_cast hr.gen.sum_nonneg (pos_of_not_mem hX h0)

theorem CopulaLike.congr {d : ℕ} {C D : List ℝ → ℝ} (h : CopulaLike d C) (he : ∀ X, X.length = d → InCube X → D X = C X) :
    CopulaLike d D where
  grounded X hl hX h0 := by rw [he X hl hX]; exact h.grounded X hl hX h0
  margins i u hi h0 h1 := by
    rw [he _ (by simp)]
    · exact h.margins i u hi h0 h1
    · intro x hx
      rcases mem_set_replicate hx with rfl | rfl
      · exact ⟨zero_le_one, le_rfl⟩
      · exact ⟨h0, h1⟩
  lower X hl hX := by rw [he X hl hX]; exact h.lower X hl hX
  upper X hl hX := by rw [he X hl hX]; exact h.upper X hl hX

theorem TwoIncreasing.congr {C D : List ℝ → ℝ} (h : TwoIncreasing C) (he : ∀ X, X.length = 2 → InCube X → D X = C X) :
    TwoIncreasing D := by
  intro a b c d h1 h2 h3 h4 h5 h6
  have hc : ∀ u v : ℝ, 0 ≤ u → u ≤ 1 → 0 ≤ v → v ≤ 1 → D [u, v] = C [u, v] := by
    intro u v h1 h2 h3 h4
    refine he _ rfl ?_
    intro x hx
    simp only [List.mem_cons, List.not_mem_nil, or_false] at hx
    rcases hx with rfl | rfl <;> constructor <;> assumption
  rw [hc b d (by linarith) h3 (by linarith) h6, hc a d h1 (by linarith) (by linarith) h6,
    hc b c (by linarith) h3 h4 (by linarith), hc a c h1 (by linarith) h4 (by linarith)]
  exact h a b c d h1 h2 h3 h4 h5 h6

theorem mixed_congr_cube {C D : List ℝ → ℝ} {d : ℕ} (he : ∀ X, X.length = d → InCube X → D X = C X) {X : List ℝ}
    (hl : X.length = d) (hX : InOpenCube X) : mixedDeriv D X = mixedDeriv C X := by
  refine mixedDeriv_congr X (List.replicate X.length fun y => 0 < y ∧ y < 1) _ _
    (forall₂_replicate fun x hx => ioo_nhds (hX x hx)) ?_
  intro Y hY
  obtain ⟨h1, h2⟩ := forall₂_replicate_mem hY
  exact he Y (h1.trans hl) fun y hy => ⟨(h2 y hy).1.le, (h2 y hy).2.le⟩

/-! ### marginals -/

theorem forall₂_margCdf {ms : List Marg} {X : List ℝ}
    (h : List.Forall₂ (fun m x => HasDerivAt m.cdf (m.pdf x) x ∧ 0 < m.cdf x ∧ m.cdf x < 1) ms X) :
    ms.length = X.length ∧ (margCdf ms X).length = X.length ∧ InOpenCube (margCdf ms X) := by
  induction h with
  | nil => simp [margCdf, InOpenCube]
  | cons h1 _ ih =>
    obtain ⟨a, b, c⟩ := ih
    refine ⟨by simp [a], by simp only [margCdf, List.zipWith_cons_cons, List.length_cons]; exact congrArg (· + 1) b, ?_⟩
    intro y hy
    simp only [margCdf, List.zipWith_cons_cons, List.mem_cons] at hy
    rcases hy with rfl | hy
    · exact h1.2
    · exact c y hy

theorem Gen.Regular.joint {g : Gen} (hg : g.Regular) {ms : List Marg} {X : List ℝ}
    (h : List.Forall₂ (fun m x => HasDerivAt m.cdf (m.pdf x) x ∧ 0 < m.cdf x ∧ m.cdf x < 1) ms X) :
    archPdf g ms X = .ok (mixedDeriv (jointCdf ms g.val) X) := by
  obtain ⟨h1, h2, h3⟩ := forall₂_margCdf h
  have hm := hg.mixed (X := X) (Fs := ms.map Marg.cdf) (by
    rw [List.forall₂_map_left_iff]
    exact h.imp fun m x hx => ⟨hx.1.differentiableAt, hx.2⟩)
  have hj : jointCdf ms g.val = fun Y => g.val (List.zipWith (fun F y => F y) (ms.map Marg.cdf) Y) := by
    funext Y
    rw [List.zipWith_map_left]
    rfl
  rw [archPdf, if_neg (by omega), hj, hm, archCpdf_ok (h2.trans h1.symm), h1]
  show Except.ok _ = _
  congr 1
  rw [foldl_prod, one_mul, mul_assoc]
  congr 2
  · rw [margCdf, List.map_zipWith, List.zipWith_map_left]
  · clear hm hj h1 h2 h3
    induction h with
    | nil => simp [margCdf]
    | cons a _ ih =>
      simp only [margCdf, List.zipWith_cons_cons, List.map_cons, List.prod_cons, List.zip_cons_cons] at ih ⊢
      rw [← ih, a.1.deriv]
      ring

theorem margCdf_cube {ms : List Marg} (h01 : ∀ m ∈ ms, ∀ x, 0 ≤ m.cdf x ∧ m.cdf x ≤ 1) (Y : List ℝ) : InCube (margCdf ms Y) := by
  induction ms generalizing Y with
  | nil => simp [margCdf, InCube]
  | cons m ms ih =>
    cases Y with
    | nil => simp [margCdf, InCube]
    | cons y Y =>
      intro x hx
      rw [margCdf, List.zipWith_cons_cons, List.mem_cons] at hx
      rcases hx with rfl | hx
      · exact h01 m (by simp) y
      · exact ih (fun m hm => h01 m (by simp [hm])) Y x hx

/-- the joint density of a copula that is an Archimedean one on the cube -/
theorem jointPdf_of {g : Gen} (hg : g.Regular) {d : ℕ} {C c : List ℝ → ℝ} (he : ∀ X, X.length = d → InCube X → C X = g.val X)
    (hd : IsDensity d C c) {ms : List Marg} {X : List ℝ}
    (h : List.Forall₂ (fun m x => HasDerivAt m.cdf (m.pdf x) x ∧ 0 < m.cdf x ∧ m.cdf x < 1) ms X) (hl : ms.length = d)
    (h01 : ∀ m ∈ ms, ∀ x, 0 ≤ m.cdf x ∧ m.cdf x ≤ 1) : jointPdf ms c X = mixedDeriv (jointCdf ms C) X := by
  obtain ⟨h1, h2, h3⟩ := forall₂_margCdf h
  have e1 : mixedDeriv (jointCdf ms C) X = mixedDeriv (jointCdf ms g.val) X := by
    refine mixedDeriv_congr X (List.replicate X.length fun _ => True) _ _ (forall₂_replicate fun x _ => by simp) ?_
    intro Y hY
    obtain ⟨hY', -⟩ := forall₂_replicate_mem hY
    refine he _ ?_ (margCdf_cube h01 Y)
    rw [margCdf, List.length_zipWith]
    omega
  have e2 := hg.joint h
  have hlen : (margCdf ms X).length = d := by omega
  rw [archPdf, if_neg (by omega), archCpdf_ok (h2.trans h1.symm)] at e2
  have e3 : _ * _ = mixedDeriv (jointCdf ms g.val) X := Except.ok.inj e2
  have e4 := hg.density d _ hlen h3
  have e5 := hd _ hlen h3
  rw [mixed_congr_cube he hlen h3] at e5
  rw [e1, ← e3, jointPdf, ← e5, e4, hl]

/-- the joint density of independent variables -/
theorem mixedDeriv_marg {ms : List Marg} {X : List ℝ} (h : List.Forall₂ (fun m x => HasDerivAt m.cdf (m.pdf x) x) ms X) :
    ∀ c : ℝ, mixedDeriv (fun Y => c * (margCdf ms Y).prod) X = c * ((List.zip ms X).map fun p => p.1.pdf p.2).prod := by
  induction h with
  | nil => intro c; simp [mixedDeriv, margCdf]
  | @cons m x ms X hm _ ih =>
    intro c
    have e : ∀ t, mixedDeriv (fun ys => c * (margCdf (m :: ms) (t :: ys)).prod) X =
        c * m.cdf t * ((List.zip ms X).map fun p => p.1.pdf p.2).prod := by
      intro t
      rw [← ih (c * m.cdf t)]
      congr 1
      funext ys
      rw [margCdf, List.zipWith_cons_cons, List.prod_cons, mul_assoc]
      rfl
    rw [mixedDeriv]
    simp only [e]
    rw [((hm.const_mul c).mul_const _).deriv, List.zip_cons_cons, List.map_cons, List.prod_cons, mul_assoc]

/-! ### elimination and conditions -/

theorem without_cons_aux {α : Type} (p : ℕ → Bool) (l : List α) (n : ℕ) :
    ((l.zipIdx (n + 1)).filter fun q => p q.2).map Prod.fst = ((l.zipIdx n).filter fun q => p (q.2 + 1)).map Prod.fst := by
  induction l generalizing n with
  | nil => rfl
  | cons a l ih =>
    simp only [List.zipIdx_cons, List.filter_cons]
    split_ifs <;> simp only [List.map_cons, ih]

/-- sums over the remaining elements when the others contribute nothing -/
theorem sum_without (f : ℝ → ℝ) : ∀ (P : List ℝ) (p : ℕ → Bool) (n : ℕ), (∀ i x, P[i]? = some x → p (n + i) = false → f x = 0) →
    ((((P.zipIdx n).filter fun q => p q.2).map Prod.fst).map f).sum = (P.map f).sum
  | [], _, _, _ => rfl
  | x :: P, p, n, h => by
    have ih := sum_without f P p (n + 1) fun i y hy hp => h (i + 1) y (by simpa using hy) (by rw [← hp]; congr 1; omega)
    simp only [List.zipIdx_cons, List.filter_cons]
    cases hp : p n with
    | true =>
      simp only [if_true, List.map_cons, List.sum_cons, ih]
    | false =>
      have := h 0 x (by simp) (by simpa using hp)
      simp only [Bool.false_eq_true, if_false, List.map_cons, List.sum_cons, ih, this, zero_add]

theorem mem_without {α : Type} {P : List α} {p : ℕ → Bool} {n : ℕ} {x : α} :
    x ∈ ((P.zipIdx n).filter fun q => p q.2).map Prod.fst ↔ ∃ i, P[i]? = some x ∧ p (n + i) = true := by
  simp only [List.mem_map, List.mem_filter, Prod.exists, exists_and_right, exists_eq_right]
  constructor
  · rintro ⟨k, h1, h2⟩
    rw [List.mem_zipIdx_iff_le_and_getElem?_sub] at h1
    refine ⟨k - n, h1.2, ?_⟩
    rw [← h2]
    congr 1
    omega
  · rintro ⟨i, h1, h2⟩
    refine ⟨n + i, ?_, h2⟩
    rw [List.mem_zipIdx_iff_le_and_getElem?_sub]
    exact ⟨by omega, by rw [Nat.add_sub_cancel_left]; exact h1⟩

theorem length_without {α β : Type} : ∀ (l : List α) (m : List β) (p : ℕ → Bool) (n : ℕ), l.length = m.length →
    (((l.zipIdx n).filter fun q => p q.2).map Prod.fst).length = (((m.zipIdx n).filter fun q => p q.2).map Prod.fst).length
  | [], [], _, _, _ => rfl
  | [], _ :: _, _, _, h => by simp at h
  | _ :: _, [], _, _, h => by simp at h
  | a :: l, b :: m, p, n, h => by
    have ih := length_without l m p (n + 1) (by simpa using h)
    simp only [List.zipIdx_cons, List.filter_cons]
    split_ifs
    · simp only [List.map_cons, List.length_cons, ih]
    · exact ih

theorem Gen.Regular.val_without {g : Gen} (hg : g.Regular) {P : List ℝ} {var : List ℕ} (hP : InCube P)
    (h1 : ∀ i ∈ var, ∀ x, P[i]? = some x → x = 1) : g.val (without var P) = g.val P := by
  have hp : without var P = ((P.zipIdx 0).filter fun q => decide (q.2 ∉ var)).map Prod.fst := rfl
  have hmem : ∀ x, x ∈ without var P ↔ ∃ i, P[i]? = some x ∧ i ∉ var := by
    intro x
    rw [hp, mem_without (p := fun i => decide (i ∉ var))]
    simp
  by_cases h0 : 0 ∈ P
  · rw [hg.val_zero h0, hg.val_zero]
    obtain ⟨i, hi⟩ := List.mem_iff_getElem?.1 h0
    rw [hmem]
    refine ⟨i, hi, fun hv => ?_⟩
    have := h1 i hv 0 hi
    norm_num at this
  · have hpos := pos_of_not_mem hP h0
    have hpos' : ∀ x ∈ without var P, 0 < x ∧ x ≤ 1 := by
      intro x hx
      obtain ⟨i, hi, -⟩ := (hmem x).1 hx
      exact hpos x (List.mem_iff_getElem?.2 ⟨i, hi⟩)
    rw [hg.val_pos hpos, hg.val_pos hpos', hp]
    have := sum_without g.fi P (fun i => decide (i ∉ var)) 0 (by
      intro i x hi hv
      rw [zero_add, decide_eq_false_iff_not, not_not] at hv
      rw [h1 i hv x hi, hg.gen.one])
    rw [this]

theorem together_ok (var : List ℕ) : ∀ (P : List ℝ) (i : ℕ),
    together var P.length i (((P.zipIdx i).filter fun q => decide (q.2 ∈ var)).map Prod.fst)
      (((P.zipIdx i).filter fun q => decide (q.2 ∉ var)).map Prod.fst) = .ok P
  | [], i => rfl
  | x :: P, i => by
    have ih := together_ok var P (i + 1)
    simp only [List.length_cons, List.zipIdx_cons, List.filter_cons]
    rw [together.eq_def]
    by_cases h : i ∈ var
    · simp only [h, decide_true, if_true, not_true_eq_false, decide_false, List.map_cons, Bool.false_eq_true, if_false]
      rw [ih]
      rfl
    · simp only [h, decide_false, if_false, not_false_eq_true, decide_true, if_true, List.map_cons, Bool.false_eq_true]
      rw [ih]
      rfl

theorem together_congr {var var' : List ℕ} (h : ∀ i, i ∈ var ↔ i ∈ var') : ∀ (n i : ℕ) (X Y : List ℝ),
    together var n i X Y = together var' n i X Y
  | 0, _, _, _ => rfl
  | n + 1, i, X, Y => by
    rw [together.eq_def var, together.eq_def var']
    dsimp only
    by_cases hi : i ∈ var
    · rw [if_pos hi, if_pos ((h i).1 hi)]
      cases X with
      | nil => rfl
      | cons x X => simp only [together_congr h n (i + 1) X Y]
    · rw [if_neg hi, if_neg fun hc => hi ((h i).2 hc)]
      cases Y with
      | nil => rfl
      | cons y Y => simp only [together_congr h n (i + 1) X Y]

end Pacal.Copula
