import Verif.Copula.PropLemmas

/-!
C51: the copulas provided.
-/

namespace Pacal.Copula
open Set Filter Topology

/-- C51: the Archimedean copulas (Clayton for positive, Gumbel for `theta ≥ 1`, Frank for nonzero parameters) in any number of
variables are grounded, have uniform margins, lie between the Fréchet bounds, and the density is the mixed derivative; for two
variables rectangles have nonnegative measure -/
theorem C51_archimedean {g : Gen} (hg : Provided g) (d : ℕ) :
    ∃ C c : List ℝ → ℝ, (∀ X, X.length = d → archCcdf g d X = .ok (C X) ∧ archCpdf g d X = .ok (c X)) ∧
      CopulaLike d C ∧ IsDensity d C c ∧ (d = 2 → TwoIncreasing C) :=
  ⟨g.val, _, fun _ h => ⟨archCcdf_ok h, archCpdf_ok h⟩, hg.regular.copula d, hg.regular.density d,
    fun _ => hg.regular.two_increasing⟩

/-- C51: the independence copula in any number of variables -/
theorem C51_independence (d : ℕ) :
    CopulaLike d piCcdf ∧ TwoIncreasing piCcdf ∧ ∀ X, mixedDeriv piCcdf X = piCpdf X := by
  refine ⟨⟨?_, ?_, ?_, ?_⟩, ?_, ?_⟩
  · intro X _ _ h0
    rw [piCcdf_eq, List.prod_eq_zero h0]
  · intro i u hi _ _
    rw [piCcdf_eq, prod_set_replicate u d i hi]
  · intro X hl hX
    obtain ⟨h1, -, h3⟩ := prod_mem hX
    rw [piCcdf_eq]
    refine max_le h1 ?_
    rw [hl] at h3
    linarith
  · intro X _ hX x hx
    rw [piCcdf_eq]
    exact prod_le_mem hX hx
  · intro a b c d h1 h2 h3 h4 h5 h6
    simp only [piCcdf_eq, List.prod_cons, List.prod_nil, mul_one]
    nlinarith [mul_nonneg (sub_nonneg.2 h2) (sub_nonneg.2 h5)]
  · intro X
    have h : piCcdf = fun Y => 1 * Y.prod := funext fun Y => by rw [piCcdf_eq, one_mul]
    rw [h, mixedDeriv_prod]
    rfl

/-- C51: the minimum copula for arrays with at least two elements; its density is the mixed derivative where that exists -/
theorem C51_minimum_array (d : ℕ) : CopulaLike d mCcdf ∧ TwoIncreasing mCcdf ∧
    ∀ u v, InOpenCube [u, v] → u ≠ v → mixedDeriv mCcdf [u, v] = mCpdf [u, v] := by
  refine ⟨⟨?_, ?_, ?_, ?_⟩, ?_, ?_⟩
  · intro X _ hX h0
    obtain ⟨-, h2, h3⟩ := mCcdf_spec X
    refine le_antisymm (h2 0 h0) ?_
    rcases h3 with h3 | h3
    · rw [h3]
      exact zero_le_one
    · exact (hX _ h3).1
  · intro i u hi _ hu1
    obtain ⟨-, h2, h3⟩ := mCcdf_spec ((List.replicate d 1).set i u)
    refine le_antisymm (h2 u (List.mem_iff_getElem.2 ⟨i, by simpa using hi, by simp⟩)) ?_
    rcases h3 with h3 | h3
    · rw [h3]
      exact hu1
    · rcases mem_set_replicate h3 with h3 | h3 <;> rw [h3]
      exact hu1
  · intro X hl hX
    obtain ⟨-, h2, h3⟩ := mCcdf_spec X
    rcases h3 with h3 | h3
    · rw [h3]
      have := sum_le_length hX
      rw [hl] at this
      exact max_le zero_le_one (by linarith)
    · have := sum_le_mem hX h3
      rw [hl] at this
      exact max_le (hX _ h3).1 this
  · intro X _ _ x hx
    exact (mCcdf_spec X).2.1 x hx
  · intro a b c d h1 h2 h3 h4 h5 h6
    rw [mCcdf_two h3 h6, mCcdf_two (h2.trans h3) h6, mCcdf_two h3 (h5.trans h6), mCcdf_two (h2.trans h3) (h5.trans h6)]
    rcases le_total b d with x | x <;> rcases le_total a d with y | y <;> rcases le_total b c with z | z <;>
      rcases le_total a c with w | w <;> simp only [min_eq_left, min_eq_right, x, y, z, w] <;> linarith
  · intro u v hc hne
    have hu := hc u (by simp)
    have hv := hc v (by simp)
    have hnear : ∀ᶠ p : ℝ × ℝ in 𝓝 (u, v), p.1 < 1 ∧ p.2 < 1 :=
      ((continuous_fst.tendsto (u, v)).eventually (gt_mem_nhds hu.2)).and
        ((continuous_snd.tendsto (u, v)).eventually (gt_mem_nhds hv.2))
    rcases lt_or_gt_of_ne hne with h | h
    · refine mixed_const (a := 0) (b := 1) (c := 0) (near_two (P := fun t r => mCcdf [t, r] = 0 + 1 * t + 0 * r) ?_)
      have hlt : ∀ᶠ p : ℝ × ℝ in 𝓝 (u, v), p.1 < p.2 :=
        (isOpen_lt continuous_fst continuous_snd).mem_nhds (show (u, v).1 < (u, v).2 from h)
      filter_upwards [hnear, hlt] with p hp hlt
      rw [mCcdf_two hp.1.le hp.2.le, min_eq_left hlt.le]
      ring
    · refine mixed_const (a := 0) (b := 0) (c := 1) (near_two (P := fun t r => mCcdf [t, r] = 0 + 0 * t + 1 * r) ?_)
      have hlt : ∀ᶠ p : ℝ × ℝ in 𝓝 (u, v), p.2 < p.1 :=
        (isOpen_lt continuous_snd continuous_fst).mem_nhds (show (u, v).2 < (u, v).1 from h)
      filter_upwards [hnear, hlt] with p hp hlt
      rw [mCcdf_two hp.1.le hp.2.le, min_eq_right hlt.le]
      ring

/-- C51 is violated by the minimum copula for scalars: its value is the last argument, so it is not grounded and exceeds the
upper Fréchet bound -/
theorem C51_violated_minimum_scalar : mCcdfScalar [0, 1] = 1 ∧ ¬CopulaLike 2 mCcdfScalar := by
  refine ⟨by simp [mCcdfScalar], fun h => ?_⟩
  have := h.grounded [0, 1] rfl (by intro x hx; simp at hx; rcases hx with rfl | rfl <;> norm_num) (by simp)
  simp [mCcdfScalar] at this

/-- C51: the lower bound copula in two variables; its density is the mixed derivative where that exists -/
theorem C51_lower_partial : CopulaLike 2 wCcdf ∧ TwoIncreasing wCcdf ∧
    ∀ u v, InOpenCube [u, v] → u + v ≠ 1 → mixedDeriv wCcdf [u, v] = wCpdf [u, v] := by
  have h2 : ∀ u v : ℝ, wCcdf [u, v] = max 0 (u + v - 1) := by
    intro u v
    rw [wCcdf_eq]
    simp
  refine ⟨⟨?_, ?_, ?_, ?_⟩, ?_, ?_⟩
  · intro X hl hX h0
    rw [wCcdf_eq]
    have := sum_le_of_zero hX h0
    rw [hl] at this
    rw [max_eq_left]
    push_cast at this
    linarith
  · intro i u hi h0 _
    rw [wCcdf_eq]
    have : ((List.replicate 2 (1 : ℝ)).set i u).sum = u + 1 := by
      rcases i with _ | _ | i
      · simp [List.replicate]
      · simp [List.replicate, add_comm]
      · omega
    rw [this, add_sub_cancel_right, max_eq_right h0]
  · intro X hl hX
    rw [wCcdf_eq]
    refine le_of_eq ?_
    norm_num
  · intro X hl hX x hx
    rw [wCcdf_eq]
    have := sum_le_mem hX hx
    rw [hl] at this
    push_cast at this
    exact max_le (hX x hx).1 (by linarith)
  · intro a b c d h1 h2' h3 h4 h5 h6
    simp only [h2]
    rcases le_total (b + d - 1) 0 with x | x <;> rcases le_total (a + d - 1) 0 with y | y <;>
      rcases le_total (b + c - 1) 0 with z | z <;> rcases le_total (a + c - 1) 0 with w | w <;>
      simp only [max_eq_left, max_eq_right, x, y, z, w] <;> linarith
  · intro u v _ hne
    rcases lt_or_gt_of_ne hne with h | h
    · refine mixed_const (a := 0) (b := 0) (c := 0) (near_two (P := fun t r => wCcdf [t, r] = 0 + 0 * t + 0 * r) ?_)
      have hlt : ∀ᶠ p : ℝ × ℝ in 𝓝 (u, v), p.1 + p.2 < 1 :=
        (isOpen_lt (continuous_fst.add continuous_snd) continuous_const).mem_nhds (show (u, v).1 + (u, v).2 < 1 from h)
      filter_upwards [hlt] with p hlt
      rw [h2, max_eq_left (by linarith)]
      ring
    · refine mixed_const (a := -1) (b := 1) (c := 1) (near_two (P := fun t r => wCcdf [t, r] = -1 + 1 * t + 1 * r) ?_)
      have hlt : ∀ᶠ p : ℝ × ℝ in 𝓝 (u, v), 1 < p.1 + p.2 :=
        (isOpen_lt continuous_const (continuous_fst.add continuous_snd)).mem_nhds (show 1 < (u, v).1 + (u, v).2 from h)
      filter_upwards [hlt] with p hlt
      rw [h2, max_eq_right (by linarith)]
      ring

/-- C51 is violated by the lower bound copula in three or more variables, because 1 is subtracted and not the number of
variables less one: at `(1, ..., 1)` the value is greater than 1 -/
theorem C51_violated_lower {d : ℕ} (hd : 3 ≤ d) : 1 < wCcdf (List.replicate d 1) ∧ ¬CopulaLike d wCcdf := by
  have h3 : (3 : ℝ) ≤ d := by exact_mod_cast hd
  have h1 : 1 < wCcdf (List.replicate d 1) := by
    rw [wCcdf_eq, List.sum_replicate, nsmul_eq_mul, mul_one]
    exact lt_max_of_lt_right (by linarith)
  refine ⟨h1, fun h => ?_⟩
  have := h.upper (List.replicate d 1) (by simp) (by
    intro x hx
    rw [List.eq_of_mem_replicate hx]
    norm_num) 1 (List.mem_replicate.2 ⟨by omega, rfl⟩)
  linarith

/-- C51: the class for Gumbel copulas in two variables, with its closed formula for the density.  (The distribution function
is that of the Archimedean copula in any number of variables.) -/
theorem C51_gumbel2d {theta : ℝ} (h : 1 ≤ theta) : (∀ d, CopulaLike d (gumbel2dCcdf theta)) ∧
    TwoIncreasing (gumbel2dCcdf theta) ∧ IsDensity 2 (gumbel2dCcdf theta) (gumbel2dCpdf theta) := by
  have hr := gumbel_regular h
  refine ⟨fun d => (hr.copula d).congr fun X _ hX => gumbel2d_val h hX,
    hr.two_increasing.congr fun X _ hX => gumbel2d_val h hX, ?_⟩
  intro X hl hX
  rw [mixed_congr_cube (C := (gumbel theta).val) (d := 2) (fun X _ hX => gumbel2d_val h hX) hl hX, hr.density 2 X hl hX]
  obtain ⟨u, v, rfl⟩ := List.length_eq_two.1 hl
  have hu := hX u (by simp)
  have hv := hX v (by simp)
  exact gumbel2d_density h hu.1 hu.2 hv.1 hv.2

/-- C51: the class for Frank copulas in two variables, with its closed formula for the density -/
theorem C51_frank2d {theta : ℝ} (h : theta ≠ 0) : CopulaLike 2 (frank2dCcdf theta) ∧ TwoIncreasing (frank2dCcdf theta) ∧
    IsDensity 2 (frank2dCcdf theta) (frank2dCpdf theta) := by
  have hr := frank_regular h
  have he : ∀ X : List ℝ, X.length = 2 → InCube X → frank2dCcdf theta X = (frank theta).val X := by
    intro X hl hX
    obtain ⟨u, v, rfl⟩ := List.length_eq_two.1 hl
    have hu := hX u (by simp)
    have hv := hX v (by simp)
    exact (frank_val_two h hu.1 hu.2 hv.1 hv.2).symm
  refine ⟨(hr.copula 2).congr he, hr.two_increasing.congr he, ?_⟩
  intro X hl hX
  rw [mixed_congr_cube he hl hX, hr.density 2 X hl hX]
  obtain ⟨u, v, rfl⟩ := List.length_eq_two.1 hl
  have hu := hX u (by simp)
  have hv := hX v (by simp)
  exact frank2d_density h hu.1 hu.2 hv.1 hv.2

/-- `FrankCopula2d` accepts three variables, but then the value at `(1, 1, 1)` is not 1 -/
theorem C51_finding_frank_three {theta : ℝ} (h : 0 < theta) : frank2dCcdf theta [1, 1, 1] ≠ 1 := by
  have h0 := Real.exp_pos (-theta)
  have h1 : Real.exp (-theta) < 1 := by
    rw [Real.exp_lt_one_iff]
    linarith
  obtain ⟨q, hq⟩ : ∃ q, q = Real.exp (-theta) := ⟨_, rfl⟩
  simp only [frank2dCcdf, List.foldl_cons, List.foldl_nil, mul_one]
  rw [← hq] at h0 h1 ⊢
  have e : 1 + -(1 * -(q - 1) * -(q - 1) * -(q - 1)) / -(q - 1) = 1 - (1 - q) ^ 2 := by
    have : q - 1 ≠ 0 := by linarith
    field_simp
    ring
  rw [e]
  intro hc
  have hl : Real.log (1 - (1 - q) ^ 2) = -theta := by
    field_simp at hc
    linarith
  have hp : 0 < 1 - (1 - q) ^ 2 := by nlinarith
  have : 1 - (1 - q) ^ 2 = q := (Real.exp_log hp).symm.trans (by rw [hl, hq])
  nlinarith

/-- C51 is violated by the Clayton copula with a negative parameter: for `theta = -1`, announced as the lower bound copula, the
values at (1/4, 1/4) and at (0, 1/2) are negative -/
theorem C51_violated_clayton : archCcdf (clayton (-1)) 2 [1 / 4, 1 / 4] = .ok (-1 / 2) ∧
    archCcdf (clayton (-1)) 2 [0, 1 / 2] = .ok (-1 / 2) := by
  have h1 : ∀ t : ℝ, (clayton (-1)).npFi t = ((1 - t : ℝ) : WithTop ℝ) := by
    intro t
    simp only [clayton]
    rw [if_neg (by norm_num)]
    norm_num
  have key : ∀ u v : ℝ, u + v = 1 / 2 → archCcdf (clayton (-1)) 2 [u, v] = .ok (-1 / 2) := by
    intro u v huv
    have h2 : (clayton (-1)).sum [u, v] = ((3 / 2 : ℝ) : WithTop ℝ) := by
      simp only [Gen.sum, List.foldl_cons, List.foldl_nil, h1]
      rw [zero_add, ← WithTop.coe_add]
      congr 1
      linarith
    rw [archCcdf_ok (show [u, v].length = 2 from rfl), Gen.val, h2, if_neg]
    · show Except.ok (((1 : ℝ) + 3 / 2 * -1) ^ ((-1 : ℝ) / -1)) = _
      norm_num
    · rw [not_lt]
      exact_mod_cast (by norm_num : (0 : ℝ) ≤ 3 / 2)
  exact ⟨key _ _ (by norm_num), key _ _ (by norm_num)⟩

/-- C51: with continuous marginals the joint density is the mixed derivative of the joint distribution function, which is the
copula at the values of the marginal distribution functions -/
theorem C51_joint_density {g : Gen} (hg : Provided g) {ms : List Marg} {X : List ℝ}
    (h : List.Forall₂ (fun m x => HasDerivAt m.cdf (m.pdf x) x ∧ 0 < m.cdf x ∧ m.cdf x < 1) ms X) :
    ∃ C : List ℝ → ℝ, (∀ U, U.length = ms.length → archCcdf g ms.length U = .ok (C U)) ∧
      archPdf g ms X = .ok (mixedDeriv (jointCdf ms C) X) :=
  ⟨g.val, fun _ hl => archCcdf_ok hl, hg.regular.joint h⟩

/-- C51: the same for the classes in two variables and, in any number of variables, for independence -/
theorem C51_joint_density_two {ms : List Marg} {X : List ℝ}
    (h : List.Forall₂ (fun m x => HasDerivAt m.cdf (m.pdf x) x ∧ 0 < m.cdf x ∧ m.cdf x < 1) ms X) :
    jointPdf ms piCpdf X = mixedDeriv (jointCdf ms piCcdf) X ∧
    (ms.length = 2 → (∀ m ∈ ms, ∀ x, 0 ≤ m.cdf x ∧ m.cdf x ≤ 1) → ∀ theta : ℝ,
      (1 ≤ theta → jointPdf ms (gumbel2dCpdf theta) X = mixedDeriv (jointCdf ms (gumbel2dCcdf theta)) X) ∧
      (theta ≠ 0 → jointPdf ms (frank2dCpdf theta) X = mixedDeriv (jointCdf ms (frank2dCcdf theta)) X)) := by
  refine ⟨?_, fun hl h01 theta => ⟨fun ht => ?_, fun ht => ?_⟩⟩
  · have := mixedDeriv_marg (h.imp fun _ _ hx => hx.1) 1
    have e : jointCdf ms piCcdf = fun Y => 1 * (margCdf ms Y).prod := by
      funext Y
      rw [jointCdf, piCcdf_eq, one_mul]
    rw [e, this, jointPdf, foldl_prod, piCpdf]
    ring
  · exact jointPdf_of (gumbel_regular ht) (fun X _ hX => gumbel2d_val ht hX) (C51_gumbel2d ht).2.2 h hl h01
  · refine jointPdf_of (frank_regular ht) (fun X hl hX => ?_) (C51_frank2d ht).2.2 h hl h01
    obtain ⟨u, v, rfl⟩ := List.length_eq_two.1 hl
    have hu := hX u (by simp)
    have hv := hX v (by simp)
    exact (frank_val_two ht hu.1 hu.2 hv.1 hv.2).symm

/-- C51: eliminating variables gives the margin: the marginals of the other variables, with the copula whose value is that of
the joint copula when the eliminated variables are 1 -/
theorem C51_eliminate {g : Gen} (hg : Provided g) (ms : List Marg) (var : List ℕ) :
    eliminate ms var = without var ms ∧ ∀ P : List ℝ, P.length = ms.length → InCube P →
      (∀ i ∈ var, ∀ x, P[i]? = some x → x = 1) →
      archCcdf g (eliminate ms var).length (without var P) = archCcdf g ms.length P := by
  refine ⟨rfl, fun P hl hP h1 => ?_⟩
  rw [archCcdf_ok hl, archCcdf_ok, hg.regular.val_without hP h1]
  exact length_without P ms (fun i => decide (i ∉ var)) 0 hl

/-- C51: the conditional density is the joint density divided by the density of the condition; the values of the given variables
are in the order of the variables -/
theorem C51_condition (g : Gen) (ms : List Marg) (var : List ℕ) {P : List ℝ} (hl : P.length = ms.length) {num den : ℝ}
    (hnum : archPdf g ms P = .ok num) (hden : archPdf g (among var ms) (among var P) = .ok den) :
    condition g ms var (among var P) (without var P) = .ok (num / den) := by
  have ht : together var ms.length 0 (among var P) (without var P) = .ok P := by
    rw [← hl]
    exact together_ok var P 0
  have hc : eliminate ms ((List.range ms.length).filter fun i => decide (i ∉ var)) = among var ms := by
    rw [eliminate, among]
    congr 1
    refine List.filter_congr fun q hq => ?_
    have hlt : q.2 < ms.length := List.snd_lt_of_mem_zipIdx hq
    simp [List.mem_filter, hlt]
  rw [condition, hc, ht]
  show (archPdf g ms P >>= fun num => archPdf g (among var ms) (among var P) >>= fun den => Except.ok (num / den)) = _
  rw [hnum, hden]
  rfl

/-- the order in which the given variables are listed is ignored: `condition([1, 0], x, y)` gives `x` to the variable 0 -/
theorem C51_finding_condition_order (g : Gen) (ms : List Marg) {var var' : List ℕ} (h : var.Perm var') (X Y : List ℝ) :
    condition g ms var X Y = condition g ms var' X Y := by
  have hm : ∀ i, i ∈ var ↔ i ∈ var' := fun i => h.mem_iff
  have hc : ((List.range ms.length).filter fun i => decide (i ∉ var)) =
      (List.range ms.length).filter fun i => decide (i ∉ var') :=
    List.filter_congr fun i _ => decide_eq_decide.2 (not_congr (hm i))
  rw [condition, condition, hc]
  simp only [together_congr hm]

/-- C51: Blomqvist's beta is between -1 and 1, and has the known values for the bounds and for independence (the arguments are
scalars) -/
theorem C51_beta {C : List ℝ → ℝ} (h : CopulaLike 2 C) :
    -1 ≤ beta C ∧ beta C ≤ 1 ∧ beta piCcdf = 0 ∧ beta mCcdfScalar = 1 ∧ beta wCcdf = -1 := by
  have hX : InCube [1 / 2, 1 / 2] := by
    intro x hx
    simp only [List.mem_cons, List.not_mem_nil, or_false, or_self] at hx
    rw [hx]
    norm_num
  have h1 := h.lower _ rfl hX
  have h2 := h.upper _ rfl hX (1 / 2) (by simp)
  have h3 := (le_max_left _ _).trans h1
  refine ⟨by rw [beta]; linarith, by rw [beta]; linarith, ?_, ?_, ?_⟩
  · simp only [beta, piCcdf, List.foldl_cons, List.foldl_nil]
    norm_num
  · simp only [beta, mCcdfScalar, List.foldl_cons, List.foldl_nil]
    norm_num
  · rw [beta, wCcdf_eq]
    norm_num

/-- `dualcdf` gives the arguments, and not the values of the marginal distribution functions, to the copula: for independent
variables uniform on [0, 2] the value at (1, 1) is 0, although the probability that one of them is at most 1 is 3/4 -/
theorem C51_finding_dual : let m : Marg := ⟨fun x => x / 2, fun _ => 1 / 2⟩
    dualCdf [m, m] piCcdf [1, 1] = 0 ∧ 1 / 2 + 1 / 2 - jointCdf [m, m] piCcdf [1, 1] = 3 / 4 := by
  simp only [dualCdf, jointCdf, margCdf, piCcdf_eq]
  norm_num

/-- the copulas of the bounds have no density, but report the density 0 for any marginals -/
theorem C51_finding_singular (ms : List Marg) (X : List ℝ) : jointPdf ms mCpdf X = 0 ∧ jointPdf ms wCpdf X = 0 := by
  simp [jointPdf, mCpdf, wCpdf]

/-! ### the hypotheses can be met -/

example : ∃ C c : List ℝ → ℝ, (∀ X, X.length = 3 → archCcdf (clayton 2) 3 X = .ok (C X) ∧ archCpdf (clayton 2) 3 X = .ok (c X)) ∧
    C [1 / 2, 1, 1] = 1 / 2 ∧ C [0, 1 / 2, 1 / 2] = 0 ∧ mixedDeriv C [1 / 2, 1 / 3, 1 / 4] = c [1 / 2, 1 / 3, 1 / 4] := by
  obtain ⟨C, c, h1, h2, h3, -⟩ := C51_archimedean (Or.inl ⟨2, two_pos, rfl⟩ : Provided (clayton 2)) 3
  refine ⟨C, c, h1, ?_, ?_, h3 _ rfl ?_⟩
  · have := h2.margins 0 (1 / 2) (by norm_num) (by norm_num) (by norm_num)
    simpa [List.replicate] using this
  · refine h2.grounded _ rfl ?_ (by simp)
    intro x hx
    simp only [List.mem_cons, List.not_mem_nil, or_false] at hx
    rcases hx with rfl | rfl | rfl <;> norm_num
  · intro x hx
    simp only [List.mem_cons, List.not_mem_nil, or_false] at hx
    rcases hx with rfl | rfl | rfl <;> norm_num

example : Provided (gumbel 3) ∧ Provided (frank (-2)) :=
  ⟨Or.inr (Or.inl ⟨3, by norm_num, rfl⟩), Or.inr (Or.inr ⟨-2, by norm_num, rfl⟩)⟩

/-- two marginals uniform on [0, 2] and [0, 1] -/
example : ∃ c, archPdf (gumbel 2) [⟨fun x => x / 2, fun _ => 1 / 2⟩, ⟨id, fun _ => 1⟩] [1, 1 / 2] = .ok c := by
  obtain ⟨C, -, h⟩ := C51_joint_density (Or.inr (Or.inl ⟨2, one_le_two, rfl⟩) : Provided (gumbel 2))
    (ms := [⟨fun x => x / 2, fun _ => 1 / 2⟩, ⟨id, fun _ => 1⟩]) (X := [1, 1 / 2])
    (List.Forall₂.cons ⟨(hasDerivAt_id 1).div_const 2, by norm_num, by norm_num⟩
      (List.Forall₂.cons ⟨hasDerivAt_id _, by norm_num, by norm_num⟩ List.Forall₂.nil))
  exact ⟨_, h⟩

example : ∀ i ∈ [1], ∀ x, ([1 / 3, 1, 1 / 4] : List ℝ)[i]? = some x → x = 1 := by simp

example : among [0, 2] ([5, 6, 7] : List ℕ) = [5, 7] ∧ without [0, 2] ([5, 6, 7] : List ℕ) = [6] := by decide

end Pacal.Copula
