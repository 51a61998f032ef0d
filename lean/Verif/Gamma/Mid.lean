import Verif.Gamma.Big

/-!
Accuracy of the approximation for `2 ≤ u < 3`.  With `u = 5/2 + s` the routine's quotient and the logarithm of the gamma
function are both compared with the polynomial `polyT` in `s`.
-/

namespace Pacal.Gamma
open Finset

/-- the polynomial with the given coefficients, lowest first -/
def ev : List ℚ → ℝ → ℝ
  | [], _ => 0
  | c :: l, s => c + s * ev l s

/-- the bound of the polynomial by the absolute values of its coefficients -/
def evAbs : List ℚ → ℚ → ℚ
  | [], _ => 0
  | c :: l, r => |c| + r * evAbs l r

theorem abs_ev_le (l : List ℚ) {s : ℝ} {r : ℚ} (h : |s| ≤ r) : |ev l s| ≤ evAbs l r := by
  induction l with
  | nil => simp [ev, evAbs]
  | cons c l ih =>
    rw [ev, evAbs]
    refine (abs_add_le _ _).trans ?_
    rw [abs_mul]
    push_cast
    have : |s| * |ev l s| ≤ (r : ℝ) * (evAbs l r : ℝ) := mul_le_mul h ih (abs_nonneg _) ((abs_nonneg s).trans h)
    linarith

theorem ev_small (l : List ℚ) {s : ℝ} {b : ℚ} (h : |s| ≤ 1 / 2) (hb : evAbs l (1 / 2) ≤ b) : |ev l s| ≤ b := by
  have h1 : |s| ≤ ((1 / 2 : ℚ) : ℝ) := by
    push_cast
    exact h
  exact (abs_ev_le l h1).trans (by exact_mod_cast hb)

/-- coefficients of the polynomial -/
def polyT : List ℚ :=
  [7117071761822979/25000000000000000, 35157832032262159/50000000000000000, 1225894390250587/5000000000000000, 
    -3936734194028721/100000000000000000, 9329410367387701/1000000000000000000, -40853645769383/15625000000000000, 
    803568303518381/1000000000000000000, -52301829625081/200000000000000000, 88423521077109/1000000000000000000, 
    -30715473809111/1000000000000000000, 2176516498399/200000000000000000, -1956938744043/500000000000000000, 
    1424099410207/1000000000000000000, -261499664599/500000000000000000, 9676108839/50000000000000000, 
    -18013230729/250000000000000000, 26965625971/1000000000000000000, -5067715661/500000000000000000]

/-- coefficients of the difference between numerator and polynomial times denominator -/
def diff1 : List ℚ :=
  [910845743325584978852871/800000000000000000000000000000000000, 
    4588525724889889336202511/1600000000000000000000000000000000000, 
    271197603170151335299481/80000000000000000000000000000000000, 
    7305110855882262300034571/3200000000000000000000000000000000000, 
    38947035627311768584496349/32000000000000000000000000000000000000, 
    22323005975642601614545941/16000000000000000000000000000000000000, 
    8665932642643398720920689/32000000000000000000000000000000000000, 
    -10797882275190570180871411/6400000000000000000000000000000000000, 
    -94607970920040435100701249/32000000000000000000000000000000000000, 
    -120924057514201501345515081/32000000000000000000000000000000000000, 
    -45097386580173492926375991/32000000000000000000000000000000000000, 
    2066267678016224767252479/2000000000000000000000000000000000000, 
    78271786587554035232055423/32000000000000000000000000000000000000, 
    1974044133694722483792829/800000000000000000000000000000000000, 
    4928040368479619291972169/4000000000000000000000000000000000000, 
    4972393701591337165972929/8000000000000000000000000000000000000, 
    8784674136622310638203871/32000000000000000000000000000000000000, 
    6104211294207335663097017/8000000000000000000000000000000000000, 
    -110071176863549806082200811285881151/8000000000000000000000000000000000000, 
    -1899643850176500591035002164109723/200000000000000000000000000000000000, 
    -4263022422069061488288192833272063/2000000000000000000000000000000000000, 
    -86175775216404568390567684045983/500000000000000000000000000000000000, 
    -1781181605958070189095239567889/500000000000000000000000000000000000, 5067715661/500000000000000000, 0]

theorem polevl_coefB (x : ℝ) : (polevl x coefB 5).getD 0 =
    ((((-1.37825152569120859100E3 * x + -3.88016315134637840924E4) * x + -3.31612992738871184744E5) * x
      + -1.16237097492762307383E6) * x + -1.72173700820839662146E6) * x + -8.53555664245765465627E5 := rfl

theorem polevl_coefC (x : ℝ) : (polevl x coefC 6).getD 0 =
    (((((x + -3.51815701436523470549E2) * x + -1.70642106651881159223E4) * x
      + -2.20528590553854454839E5) * x + -1.13933444367982507207E6) * x + -2.53252307177582951285E6) * x
      + -2.01889141433532773231E6 := by
  have h : (1.00000000000000000000E0 : ℝ) = 1 := by norm_num
  have e : (polevl x coefC 6).getD 0 =
      (((((1.00000000000000000000E0 * x + -3.51815701436523470549E2) * x + -1.70642106651881159223E4) * x
        + -2.20528590553854454839E5) * x + -1.13933444367982507207E6) * x + -2.53252307177582951285E6) * x
        + -2.01889141433532773231E6 := rfl
  rw [e, h, one_mul]

theorem mid_num (s : ℝ) : (1 / 2 + s) * (polevl (1 / 2 + s) coefB 5).getD 0
    - ev polyT s * (polevl (1 / 2 + s) coefC 6).getD 0 = ev diff1 s := by
  rw [polevl_coefB, polevl_coefC]
  simp only [ev, polyT, diff1]
  push_cast
  ring

theorem coefC_neg {t : ℝ} (h0 : 0 ≤ t) (h1 : t ≤ 1) : (polevl t coefC 6).getD 0 ≤ -2000000 := by
  rw [polevl_coefC]
  have h2 : t ^ 6 ≤ 1 := pow_le_one₀ h0 h1
  have h3 : 0 ≤ t ^ 2 := by positivity
  have h4 : 0 ≤ t ^ 3 := by positivity
  have h5 : 0 ≤ t ^ 4 := by positivity
  have h6 : 0 ≤ t ^ 5 := by positivity
  ring_nf
  linarith

/-- the routine's quotient is the polynomial, nearly -/
theorem codeMid_poly {s : ℝ} (h : |s| ≤ 1 / 2) : |codeMid (1 / 2 + s) - ev polyT s| ≤ 1e-13 := by
  have hs := abs_le.1 h
  have hC := coefC_neg (t := 1 / 2 + s) (by linarith [hs.1]) (by linarith [hs.2])
  have hn := mid_num s
  rw [codeMid]
  obtain ⟨Q, hQ⟩ : ∃ Q, Q = (polevl (1 / 2 + s) coefC 6).getD 0 := ⟨_, rfl⟩
  obtain ⟨N, hN⟩ : ∃ N, N = (1 / 2 + s) * (polevl (1 / 2 + s) coefB 5).getD 0 := ⟨_, rfl⟩
  rw [← hQ] at hC hn ⊢
  rw [← hN] at hn ⊢
  have hQ0 : Q ≠ 0 := by linarith
  have e : N / Q - ev polyT s = ev diff1 s / Q := by
    rw [← hn]
    field_simp
  have hd : |ev diff1 s| ≤ ((1 / 10000000 : ℚ) : ℝ) := ev_small diff1 h (by decide +kernel)
  push_cast at hd
  rw [e, abs_div, abs_of_neg (by linarith : Q < 0), div_le_iff₀ (by linarith)]
  refine hd.trans ?_
  norm_num
  linarith

/-- the expansion of `log (1 + s / c)` -/
noncomputable def ellp (c s : ℝ) : ℝ := ∑ i ∈ range 16, -((-s / c) ^ (i + 1) / (i + 1))

theorem ell_close {c s : ℝ} (hc : 5 / 2 ≤ c) (h : |s| ≤ 1 / 2) :
    |Real.log (c + s) - Real.log c - ellp c s| ≤ 2e-12 := by
  have hc0 : 0 < c := by linarith
  have hx : |-s / c| ≤ 1 / 5 := by
    rw [abs_div, abs_neg, abs_of_pos hc0, div_le_iff₀ hc0]
    linarith
  have hs := abs_le.1 h
  have h1 := Real.abs_log_sub_add_sum_range_le (lt_of_le_of_lt hx (by norm_num)) 16
  have e1 : Real.log (1 - -s / c) = Real.log (c + s) - Real.log c := by
    rw [← Real.log_div (by linarith [hs.1]) hc0.ne']
    congr 1
    field_simp
    ring
  have e2 : ellp c s = -∑ i ∈ range 16, (-s / c) ^ (i + 1) / ((i : ℝ) + 1) := by
    rw [ellp, Finset.sum_neg_distrib]
  rw [e1] at h1
  rw [e2, sub_neg_eq_add, add_comm]
  refine h1.trans ?_
  have h2 : |-s / c| ^ (16 + 1) ≤ (1 / 5) ^ 17 := pow_le_pow_left₀ (abs_nonneg _) hx 17
  rw [div_le_iff₀ (by linarith)]
  norm_num at h2 ⊢
  linarith

/-- coefficients of an expansion of the remainder in Stirling's formula at `15/2` -/
def polyR : List ℚ :=
  [5552279873712631/500000000000000000, -295773923336309/200000000000000000, 12302326797841/62500000000000000, 
    -13092030323291/500000000000000000, 3481155363173/1000000000000000000, -462563449387/1000000000000000000, 
    61430786843/1000000000000000000, -8154051983/1000000000000000000, 1081781573/1000000000000000000, 
    -143446721/1000000000000000000, 19012221/1000000000000000000]

/-- coefficients of its error -/
def diff2 : List ℚ :=
  [-3937/17203200000000000, -117337/172032000000000000, -171911/1290240000000000000, 38917/61440000000000000, 
    886393/1843200000000000000, 1742799/5120000000000000000, 53241391/76800000000000000000, 
    91803539/128000000000000000000, 5039743/25600000000000000000, -64671803/128000000000000000000, 
    -381289/128000000000000000000, -215169714239177/64000000000000000000, -86166514016581/32000000000000000000, 
    -14377151901593/16000000000000000000, -1279362936971/8000000000000000000, -64036059107/4000000000000000000, 
    -1709389763/2000000000000000000, -19012221/1000000000000000000]

theorem rlo_num {s : ℝ} (h : |s| ≤ 1 / 2) : |rlo (15 / 2 + s) - ev polyR s| ≤ 1e-13 := by
  have hs := abs_le.1 h
  have hy : 0 < 15 / 2 + s := by linarith [hs.1]
  have e : rlo (15 / 2 + s) - ev polyR s = ev diff2 s / (15 / 2 + s) ^ 7 := by
    have e0 : rlo (15 / 2 + s) = ((15 / 2 + s) ^ 6 / 12 - (15 / 2 + s) ^ 4 / 360 + (15 / 2 + s) ^ 2 / 1260 - 1 / 1680)
        / (15 / 2 + s) ^ 7 := by
      obtain ⟨y, hy'⟩ : ∃ y, y = 15 / 2 + s := ⟨_, rfl⟩
      rw [← hy'] at hy ⊢
      rw [rlo]
      field_simp
    rw [e0, div_sub' (pow_pos hy 7).ne']
    congr 1
    simp only [ev, polyR, diff2]
    push_cast
    ring
  have hd : |ev diff2 s| ≤ ((1 / 100000000 : ℚ) : ℝ) := ev_small diff2 h (by decide +kernel)
  push_cast at hd
  have h7 : (7 : ℝ) ^ 7 ≤ (15 / 2 + s) ^ 7 := pow_le_pow_left₀ (by norm_num) (by linarith [hs.1]) 7
  rw [e, abs_div, abs_of_pos (pow_pos hy 7), div_le_iff₀ (pow_pos hy 7)]
  norm_num at h7 hd ⊢
  linarith

/-- coefficients of the difference between the expansion of the logarithm of the gamma function and the polynomial -/
def diff3 : List ℚ :=
  [-1/6250000000000000, 4623421499/360360000000000000000, -85984126054433/10145260125000000000000000, 
    2249584050310590359/548391890796750000000000000000, -669474283770815860013/411705212015660062500000000000000, 
    272710159173113609206121/474758688646282432392000000000000000, 
    -99434848022649851499363251387/801956442377692206266161500000000000000000, 
    -2524041454930585929107249589984287/16857926375221467867920980891500000000000000000, 
    -1198505616352019036092247849815149091/2712018905613753643251787800920062500000000000000, 
    392788821358236369105460751953821487458839/351829127817710014637597130698239340100000000000000000, 
    3018412920912275847602832145565587686967027313/1760904784727638623261173639144687897200500000000000000000, 
    -136101813554951904817486655687928059347818840121943/174503903261724259926559046465599425924672349500000000000000000, 
    -2124219209226899540298931710421644918733938049217196701/857512180628113013279111154331955578993839925443000000000000000000, 
    80628680305096383122894573434952931618899423281814409524923/16738209009770451962701610176982606924170258424684638500000000000000000, 
    -20054070292992001150148358422437839989479139386440960167691953/8119705190639646247106551096854262618914992361814518136350000000000000000, 
    -185635033599335702966972405979340827866293659289525534366729387637/156750908705298370800391968924771539858153927544829272622236750000000000000000, 
    6547262217559336370902430553212429145072837514873837090755176594088589/1882891915368044030054308330724355736776144977668489222738307841000000000000000000, 
    218148528744624781/21523360500000000000000000]

theorem expand (s : ℝ) : (0.284682870472919 : ℝ) + (7 + s) * ellp (15 / 2) s + s * (2.014903020542265 - 1)
    + (ev polyR s - ev polyR 0) - (ellp (5 / 2) s + ellp (7 / 2) s + ellp (9 / 2) s + ellp (11 / 2) s + ellp (13 / 2) s)
    - ev polyT s = ev diff3 s := by
  simp only [ev, polyR, polyT, diff3, ellp, sum_range_succ, sum_range_zero]
  push_cast
  ring

theorem mu_close {s : ℝ} (h : |s| ≤ 1 / 2) : |mu (15 / 2 + s) - ev polyR s| ≤ 2.2e-11 := by
  have hs := abs_le.1 h
  have hm := mu_bounds (x := 15 / 2 + s) (by linarith [hs.1])
  have ht := tail_small (x := 15 / 2 + s) (a := 7) (by norm_num) (by linarith [hs.1])
  have hr := abs_le.1 (rlo_num h)
  rw [rup] at hm
  rw [abs_le]
  obtain ⟨t, ht'⟩ : ∃ t, t = 1 / (1188 * (15 / 2 + s) ^ 9) := ⟨_, rfl⟩
  rw [← ht'] at hm ht
  norm_num at ht hr ⊢
  constructor <;> linarith [hm.1, hm.2, ht.1, ht.2, hr.1, hr.2]

/-- the logarithm of the gamma function about `5/2` -/
theorem log_gamma_expand {s : ℝ} (h : |s| ≤ 1 / 2) :
    Real.log (Real.Gamma (5 / 2 + s)) = Real.log (Real.Gamma (5 / 2)) + (7 + s) * (Real.log (15 / 2 + s) - Real.log (15 / 2))
      + s * (Real.log (15 / 2) - 1) + (mu (15 / 2 + s) - mu (15 / 2))
      - ((Real.log (5 / 2 + s) - Real.log (5 / 2)) + (Real.log (7 / 2 + s) - Real.log (7 / 2))
        + (Real.log (9 / 2 + s) - Real.log (9 / 2)) + (Real.log (11 / 2 + s) - Real.log (11 / 2))
        + (Real.log (13 / 2 + s) - Real.log (13 / 2))) := by
  have hs := abs_le.1 h
  have h1 := log_gamma_add_nat (x := 5 / 2 + s) (by linarith [hs.1]) 5
  have h2 := log_gamma_add_nat (x := 5 / 2) (by norm_num) 5
  simp only [sum_range_succ, sum_range_zero] at h1 h2
  have e1 : 5 / 2 + s + ((5 : ℕ) : ℝ) = 15 / 2 + s := by push_cast; ring
  have e2 : (5 / 2 : ℝ) + ((5 : ℕ) : ℝ) = 15 / 2 := by norm_num
  rw [e1] at h1
  rw [e2] at h2
  have f0 : 5 / 2 + s + ((0 : ℕ) : ℝ) = 5 / 2 + s := by push_cast; ring
  have f1 : 5 / 2 + s + ((1 : ℕ) : ℝ) = 7 / 2 + s := by push_cast; ring
  have f2 : 5 / 2 + s + ((2 : ℕ) : ℝ) = 9 / 2 + s := by push_cast; ring
  have f3 : 5 / 2 + s + ((3 : ℕ) : ℝ) = 11 / 2 + s := by push_cast; ring
  have f4 : 5 / 2 + s + ((4 : ℕ) : ℝ) = 13 / 2 + s := by push_cast; ring
  have g0 : (5 / 2 : ℝ) + ((0 : ℕ) : ℝ) = 5 / 2 := by norm_num
  have g1 : (5 / 2 : ℝ) + ((1 : ℕ) : ℝ) = 7 / 2 := by norm_num
  have g2 : (5 / 2 : ℝ) + ((2 : ℕ) : ℝ) = 9 / 2 := by norm_num
  have g3 : (5 / 2 : ℝ) + ((3 : ℕ) : ℝ) = 11 / 2 := by norm_num
  have g4 : (5 / 2 : ℝ) + ((4 : ℕ) : ℝ) = 13 / 2 := by norm_num
  rw [f0, f1, f2, f3, f4] at h1
  rw [g0, g1, g2, g3, g4] at h2
  have m1 : Real.log (Real.Gamma (15 / 2 + s)) = stir (15 / 2 + s) + mu (15 / 2 + s) := by rw [mu]; ring
  have m2 : Real.log (Real.Gamma (15 / 2)) = stir (15 / 2) + mu (15 / 2) := by rw [mu]; ring
  rw [m1, stir] at h1
  rw [m2, stir] at h2
  linear_combination h2 - h1

/-- the logarithm of the gamma function is the polynomial, nearly -/
theorem log_gamma_poly {s : ℝ} (h : |s| ≤ 1 / 2) : |Real.log (Real.Gamma (5 / 2 + s)) - ev polyT s| ≤ 9e-11 := by
  have hs := abs_le.1 h
  have hd : |ev diff3 s| ≤ ((1 / 100000000000 : ℚ) : ℝ) := ev_small diff3 h (by decide +kernel)
  rw [← expand] at hd
  push_cast at hd
  rw [log_gamma_expand h]
  have a0 := abs_le.1 (ell_close (c := 5 / 2) (by norm_num) h)
  have a1 := abs_le.1 (ell_close (c := 7 / 2) (by norm_num) h)
  have a2 := abs_le.1 (ell_close (c := 9 / 2) (by norm_num) h)
  have a3 := abs_le.1 (ell_close (c := 11 / 2) (by norm_num) h)
  have a4 := abs_le.1 (ell_close (c := 13 / 2) (by norm_num) h)
  have a5 := ell_close (c := 15 / 2) (by norm_num) h
  have m1 := abs_le.1 (mu_close h)
  have m0 := abs_le.1 (mu_close (s := 0) (by norm_num))
  rw [add_zero] at m0
  have b5 : |(7 + s) * (Real.log (15 / 2 + s) - Real.log (15 / 2) - ellp (15 / 2) s)| ≤ 15 / 2 * 2e-12 := by
    rw [abs_mul]
    refine mul_le_mul ?_ a5 (abs_nonneg _) (by norm_num)
    rw [abs_le]
    constructor <;> linarith [hs.1, hs.2]
  have l1 := log_two_bounds
  have l2 := log_half_pi_bounds
  have l3 := log_three_half_bounds
  have l4 := log_sixteen_bounds
  have b6 : |s * (Real.log (15 / 2) - 2.014903020542265)| ≤ 1 / 2 * 1e-14 := by
    rw [abs_mul]
    refine mul_le_mul h ?_ (abs_nonneg _) (by norm_num)
    rw [log_fifteen_half_eq, abs_le]
    norm_num at l1 l4 ⊢
    constructor <;> linarith [l1.1, l1.2, l4.1, l4.2]
  have b7 : |Real.log (Real.Gamma (5 / 2)) - 0.284682870472919| ≤ 1e-14 := by
    rw [log_gamma_five_half, abs_le]
    norm_num at l1 l2 l3 ⊢
    constructor <;> linarith [l1.1, l1.2, l2.1, l2.2, l3.1, l3.2]
  rw [abs_le] at b5 b6 b7 hd ⊢
  norm_num at b5 b6 b7 hd a0 a1 a2 a3 a4 m0 m1 ⊢
  constructor <;> linarith [b5.1, b5.2, b6.1, b6.2, b7.1, b7.2, hd.1, hd.2, a0.1, a0.2, a1.1, a1.2, a2.1, a2.2, a3.1, a3.2,
    a4.1, a4.2, m0.1, m0.2, m1.1, m1.2]

/-- the approximation for `2 ≤ u < 3` -/
theorem codeMid_close {u : ℝ} (h2 : 2 ≤ u) (h3 : u ≤ 3) : |codeMid (u - 2) - Real.log (Real.Gamma u)| ≤ 1e-10 := by
  have h : |u - 5 / 2| ≤ 1 / 2 := abs_le.2 ⟨by linarith, by linarith⟩
  have h4 := abs_le.1 (codeMid_poly h)
  have h5 := abs_le.1 (log_gamma_poly h)
  have e1 : 1 / 2 + (u - 5 / 2) = u - 2 := by ring
  have e2 : 5 / 2 + (u - 5 / 2) = u := by ring
  rw [e1] at h4
  rw [e2] at h5
  rw [abs_le]
  norm_num at h4 h5 ⊢
  constructor <;> linarith [h4.1, h4.2, h5.1, h5.2]

end Pacal.Gamma
