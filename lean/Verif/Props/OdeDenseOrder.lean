import Verif.Props.OdeConverge
import Verif.Props.OdeDense

/-!
# C119: accuracy of the rows between the steps

The interpolant of a step is a weighted sum of 16 stages.  Its weights satisfy the order conditions of a continuous method of
order 7 to 25 digits.  Hence the rows an integration with dense output returns follow the exact solution, except for rows inside the
second step.
-/

open scoped BigOperators Topology ContDiff
open Filter Set

namespace PyNLO.Ode

open RK dc

variable {n : ℕ}

/-! ## The tableau -/

/-- The coefficients of the stages, with those of the dense output (`dopr853_constants.py`). -/
noncomputable def rowsD : List (List ℝ) :=
  [ [],
    [a21],
    [a31, a32],
    [a41, 0, a43],
    [a51, 0, a53, a54],
    [a61, 0, 0, a64, a65],
    [a71, 0, 0, a74, a75, a76],
    [a81, 0, 0, a84, a85, a86, a87],
    [a91, 0, 0, a94, a95, a96, a97, a98],
    [a101, 0, 0, a104, a105, a106, a107, a108, a109],
    [a111, 0, 0, a114, a115, a116, a117, a118, a119, a1110],
    [a121, 0, 0, a124, a125, a126, a127, a128, a129, a1210, a1211],
    [b1, 0, 0, 0, 0, b6, b7, b8, b9, b10, b11, b12],
    [a141, 0, 0, 0, 0, 0, a147, a148, a149, a1410, a1411, a1412, a1413],
    [a151, 0, 0, 0, 0, a156, a157, a158, 0, 0, a1511, a1512, a1513, a1514],
    [a161, 0, 0, 0, 0, a166, a167, a168, a169, 0, 0, 0, a1613, a1614, a1615]]

/-- The same times `10^33`. -/
def rowsDZ : List (List ℤ) :=
  [ [],
    [52600151958767731878558754448800],
    [19725056984537899454459532918300, 59175170953613698363378598754900],
    [29587585476806849181689299377500, 0, 88762756430420547545067898132400],
    [241365134159266685502369798665000, 0, -884549479328286085344864962717000, 924834003261792003115737966543000],
    [37037037037037037037037037037000, 0, 0, 170828608729473871279604482173000, 125467687566822425016691814123000],
    [37109375000000000000000000000000, 0, 0, 170252211019544039314978060272000, 60216538980455960685021939728300, -17578125000000000000000000000000],
    [37092000118504792710877931983600, 0, 0, 170383925712239993810214054705000, 107262030446373284651809199168000, -15319437748624401752793615823600, 8273789163814022887584737660020],
    [624110958716075717114429577812000, 0, 0, -3360892629446941294068571098250000, -868219346841726006818189891453000, 27592099699446708304941560079700000, 20154067550477893408618678897900000, -43489884181069958847736625514400000],
    [477662536438264365890433908527000, 0, 0, -2488114619971667641926425864680000, -590290826836842996371446475743000, 21230051448181194234728894989700000, 15279233632882423583259692293800000, -33288210968984862919445326558700000, -20331201708508626135822292859300],
    [-937142430085987325717040216580000, 0, 0, 5186372428844063708300238532090000, 1091437348996729578185002546540000, -8149787010746926125139972673570000, -18520065659996959864156618070100000, 22739487099350504281897005673400000, 2493605552679652389870893967620000, -3046764471898219500382366902200000],
    [2273310147516538207923597684490000, 0, 0, -10534495466737250198406668987900000, -2000872058224862499096757184440000, -17958931863118798917276595053400000, 27948884529419960050849980883700000, -2858998277135023694740655086740000, -8872856933530629544335492892580000, 12360567175794303064726620152800000, 643392746015763530355970484046000],
    [54293734116568762238053576636300, 0, 0, 0, 0, 4450312892752408881441139505660000, 1891517899314500383042815990440000, -5801203960010584781467211422700000, 311164366957819894408916062370000, -152160949662516078556178806805000, 201365400804030348374776537501000, 44710615727772590517688556904300],
    [56167502283047952339290921968100, 0, 0, 0, 0, 0, 253500210216624811088794765333000, -246239037470802489917441475441000, -124191423263816360469010140626000, 153291798278765697312063226850000, 8201052295634689884916666020570, 7567897660545699761386035895840, -8298000000000000000000000000000],
    [31834648163502140506076847326100, 0, 0, 0, 0, 28300909672366775528832296140200, 53541988307438567622379738437200, -54923748571390988464656934030600, 0, 0, -108347328697249322858509316994, 382571090835658412954920192323, -340465008687404560802977114492, 141312443674632500278074618366000],
    [-428896301583791923408573538692000, 0, 0, 0, 0, -4697621415361163843144494472060000, 7683421196062599041842409538780000, 4068989818397110079702135543310000, 356727187455281109270669543021000, 0, 0, 0, -1399024165159014621294180097340, 2947514789152772338955627214900000, -9150958472179870010818701871380000]]

/-- The coefficients of the stages. -/
noncomputable def da (i l : ℕ) : ℝ := (rowsD.getD i []).getD l 0

/-- The weights of the coefficients of the interpolant. -/
noncomputable def rowsW : Fin 7 → List ℝ
  | 0 => [b1, 0, 0, 0, 0, b6, b7, b8, b9, b10, b11, b12, 0, 0, 0, 0]
  | 1 => [1 - b1, 0, 0, 0, 0, -b6, -b7, -b8, -b9, -b10, -b11, -b12, 0, 0, 0, 0]
  | 2 => [2 * b1 - 1, 0, 0, 0, 0, 2 * b6, 2 * b7, 2 * b8, 2 * b9, 2 * b10, 2 * b11, 2 * b12, -1, 0, 0, 0]
  | 3 => [d41, 0, 0, 0, 0, d46, d47, d48, d49, d410, d411, d412, d413, d414, d415, d416]
  | 4 => [d51, 0, 0, 0, 0, d56, d57, d58, d59, d510, d511, d512, d513, d514, d515, d516]
  | 5 => [d61, 0, 0, 0, 0, d66, d67, d68, d69, d610, d611, d612, d613, d614, d615, d616]
  | 6 => [d71, 0, 0, 0, 0, d76, d77, d78, d79, d710, d711, d712, d713, d714, d715, d716]

/-- The same times `10^33`. -/
def rowsWZ : Fin 7 → List ℤ
  | 0 => [54293734116568762238053576636300, 0, 0, 0, 0, 4450312892752408881441139505660000, 1891517899314500383042815990440000, -5801203960010584781467211422700000, 311164366957819894408916062370000, -152160949662516078556178806805000, 201365400804030348374776537501000, 44710615727772590517688556904300, 0, 0, 0, 0]
  | 1 => [945706265883431237761946423363700, 0, 0, 0, 0, -4450312892752408881441139505660000, -1891517899314500383042815990440000, 5801203960010584781467211422700000, -311164366957819894408916062370000, 152160949662516078556178806805000, -201365400804030348374776537501000, -44710615727772590517688556904300, 0, 0, 0, 0]
  | 2 => [-891412531766862475523892846727400, 0, 0, 0, 0, 8900625785504817762882279011320000, 3783035798629000766085631980880000, -11602407920021169562934422845400000, 622328733915639788817832124740000, -304321899325032157112357613610000, 402730801608060696749553075002000, 89421231455545181035377113808600, -1000000000000000000000000000000000, 0, 0, 0]
  | 3 => [-8428938276109012865135349114200000, 0, 0, 0, 0, 566714953519377769625317835900000, -3068949945949891691279730472700000, 2384667656512069828772814968000000, 2117034582445028276715514994600000, -871391583777972992067899074900000, 2240437430260788275854177165000000, 631578778769468818155702492900000, -88990336451333310820698117400000, 18148505520854727256656404962000000, -9194632392478355400045198443600000, -4436036387594893966431057200000000]
  | 4 => [10427508642579134603413151009000000, 0, 0, 0, 0, 242283491775258182884301753190000000, 165200451717270281985053948870000000, -374546754722690202795183121520000000, -22113666853125306036270938578000000, 7733432668472263838960389880800000, -30674084731089398182061213626000000, -9332130526430227872956722170600000, 15697238121770843886131091075000000, -31139403219565177677282850411000000, -9352924358844478386571386266400000, 35816841486394083752465898540000000]
  | 5 => [19985053242002433820987653617000000, 0, 0, 0, 0, -387037308749351765551059017420000000, -189178138195167568828308383280000000, 527808159205423649005610166860000000, -11573902539959630126141871134000000, 6881232694696300016966692266100000, -1000605096691083840318386098000000, 777713779805344320928692657400000, -2778205752353508406593200433900000, -60196695231264120758267380846000000, 84320405506677161018159903784000000, 11992291136182789328035130030000000]
  | 6 => [-25693933462703749003312586129000000, 0, 0, 0, 0, -154189748690236433740539936270000000, -231529379176045495675360391090000000, 357639117910614123782853499100000000, 93405324183624310003907691704000000, -37458323136451633156875139351000000, 104099649508962300451472461840000000, 29840293426660503123344363579000000, -43533456590011143754432175058000000, 96324553959188282948394950600000000, -39177261675615439165231486172000000, -149726836257985625814221252760000000]

noncomputable def dw (j : Fin 7) (i : ℕ) : ℝ := (rowsW j).getD i 0

/-- The nodes. -/
noncomputable def dn (i : ℕ) : ℝ := [0, c2, c3, c4, c5, c6, c7, c8, c9, c10, c11, 1, 1, c14, c15, c16].getD i 0

/-- The polynomials of the interpolant. -/
noncomputable def basis (t : ℝ) : Fin 7 → ℝ :=
  ![t, t * (1 - t), t * (1 - t) * t, t * (1 - t) * t * (1 - t), t * (1 - t) * t * (1 - t) * t, t * (1 - t) * t * (1 - t) * t * (1 - t),
    t * (1 - t) * t * (1 - t) * t * (1 - t) * t]

theorem nest_basis (r : Fin 7 → ℝ) (t : ℝ) : nest r t = ∑ j, basis t j * r j := by
  simp [nest, basis, Fin.sum_univ_succ]
  ring

theorem basis_le {t : ℝ} (ht : t ∈ Icc (0 : ℝ) 1) (j : Fin 7) : |basis t j| ≤ 1 := by
  obtain ⟨t0, t1⟩ := ht
  have s0 : 0 ≤ 1 - t := by linarith
  have s1 : 1 - t ≤ 1 := by linarith
  have key : ∀ a b : ℝ, 0 ≤ a ∧ a ≤ 1 → 0 ≤ b → b ≤ 1 → 0 ≤ a * b ∧ a * b ≤ 1 := fun a b ha h0 h1 =>
    ⟨mul_nonneg ha.1 h0, mul_le_one₀ ha.2 h0 h1⟩
  have k0 : 0 ≤ t ∧ t ≤ 1 := ⟨t0, t1⟩
  have k1 := key _ _ k0 s0 s1
  have k2 := key _ _ k1 t0 t1
  have k3 := key _ _ k2 s0 s1
  have k4 := key _ _ k3 t0 t1
  have k5 := key _ _ k4 s0 s1
  have k6 := key _ _ k5 t0 t1
  rw [abs_le]
  have : 0 ≤ basis t j ∧ basis t j ≤ 1 := by
    fin_cases j
    exacts [k0, k1, k2, k3, k4, k5, k6]
  exact ⟨by linarith, this.2⟩

set_option maxHeartbeats 2000000 in
theorem scaledD : Scaled (10 ^ 33) rowsDZ da where
  len := by
    intro i hi
    have hi' : i < 16 := hi
    interval_cases i <;> rfl
  coef := by
    intro i hi l hl
    have hi' : i < 16 := hi
    interval_cases i <;> interval_cases l <;>
      norm_num [rowsDZ, da, rowsD, a21, a31, a32, a41, a43, a51, a53, a54, a61, a64, a65, a71, a74, a75, a76, a81, a84, a85, a86, a87,
        a91, a94, a95, a96, a97, a98, a101, a104, a105, a106, a107, a108, a109, a111, a114, a115, a116, a117, a118, a119, a1110,
        a121, a124, a125, a126, a127, a128, a129, a1210, a1211, b1, b6, b7, b8, b9, b10, b11, b12,
        a141, a147, a148, a149, a1410, a1411, a1412, a1413, a151, a156, a157, a158, a1511, a1512, a1513, a1514,
        a161, a166, a167, a168, a169, a1613, a1614, a1615]

set_option maxHeartbeats 2000000 in
theorem scaled_w (j : Fin 7) (i : ℕ) (hi : i < rowsDZ.length) : (((rowsWZ j).getD i 0 : ℤ) : ℝ) = 10 ^ 33 * dw j i := by
  have hi' : i < 16 := hi
  fin_cases j <;> interval_cases i <;>
    norm_num [rowsWZ, dw, rowsW, b1, b6, b7, b8, b9, b10, b11, b12, d41, d46, d47, d48, d49, d410, d411, d412, d413, d414, d415, d416, d51, d56, d57, d58, d59, d510, d511, d512, d513, d514, d515, d516, d61, d66, d67, d68, d69, d610, d611, d612, d613, d614, d615, d616, d71, d76, d77, d78, d79, d710, d711, d712, d713, d714, d715, d716]

theorem len_w (j : Fin 7) : (rowsWZ j).length = rowsDZ.length := by fin_cases j <;> rfl

/-- `420` times the coefficients for which the interpolant is `t^(k+1)/(k+1)`. -/
def exactZ : Fin 7 → List ℤ
  | 0 => [420, 210, 140, 105, 84, 70, 60]
  | 1 => [0, -210, -140, -105, -84, -70, -60]
  | 2 => [0, 0, -140, -210, -252, -280, -300]
  | 3 => [0, 0, 0, 105, 168, 210, 240]
  | 4 => [0, 0, 0, 0, 84, 210, 360]
  | 5 => [0, 0, 0, 0, 0, -70, -180]
  | 6 => [0, 0, 0, 0, 0, 0, -60]

theorem exact_eq (j : Fin 7) (k : ℕ) (hk : k < 7) : (((exactZ j).getD k 0 : ℤ) : ℝ) = 420 * denseExact k j := by
  fin_cases j <;> interval_cases k <;> norm_num [exactZ, denseExact]

/-- The test of a tree: the weight is the exact coefficient to 26 digits. -/
def passesD (j : Fin 7) (t : BT) : Bool :=
  decide ((420 * (t.rdens : ℕ) * dotp (rowsWZ j) (t.ints rowsDZ) - (exactZ j).getD (t.ord - 1) 0 * (10 ^ 33) ^ t.ord).natAbs * 10 ^ 26 ≤
    420 * t.rdens * (10 ^ 33) ^ t.ord)

theorem all_passD : ∀ j, (levels 7).all (fun l => l.all (passesD j)) = true := by decide +kernel

/-- The order conditions of the interpolant, to 26 digits. -/
theorem weightD {K d : ℕ} (t : Tr K d) (ht : t.ord ≤ 7) (j : Fin 7) :
    |t.weight 16 da (dw j) - t.ord / t.density * denseExact (t.ord - 1) j| ≤ 1e-26 := by
  have h1 := all_levels (all_passD j) (Tr.toBT t) (by rw [toBT_ord]; exact ht)
  have h2 := of_decide_eq_true h1
  have h3 := weight_eq scaledD (rowsWZ j) (dw j) (len_w j) (scaled_w j) t
  have h4 := toBT_density t
  rw [show rowsDZ.length = 16 from rfl] at h3
  rw [toBT_ord] at h2 h4
  have ho : 1 ≤ t.ord := by unfold Tr.ord; omega
  have ho' : (1 : ℝ) ≤ t.ord := by exact_mod_cast ho
  have hd := density_ge_one t
  set r : ℕ := BT.rdens (Tr.toBT t) with hr
  have hr0 : (0 : ℝ) < r := by
    have : (0 : ℝ) < (t.ord * r : ℕ) := by rw [h4]; linarith
    have : 0 < t.ord * r := by exact_mod_cast this
    exact_mod_cast Nat.pos_of_mul_pos_left this
  have h5 : (t.ord : ℝ) / t.density = 1 / r := by
    rw [← h4]; push_cast; field_simp
  have hS : (0 : ℝ) < (10 ^ 33) ^ t.ord := by positivity
  have h6 : (((420 * (r : ℕ) * dotp (rowsWZ j) ((Tr.toBT t).ints rowsDZ) - (exactZ j).getD (t.ord - 1) 0 * (10 ^ 33) ^ t.ord : ℤ).natAbs * 10 ^ 26 : ℕ) : ℝ) ≤
      ((420 * r * (10 ^ 33) ^ t.ord : ℕ) : ℝ) := by exact_mod_cast h2
  rw [Nat.cast_mul, Nat.cast_natAbs, Int.cast_abs, Int.cast_sub, Int.cast_mul, Int.cast_mul, Int.cast_mul, h3, exact_eq j _ (by omega)] at h6
  rw [Nat.cast_mul, Nat.cast_mul, Nat.cast_pow, Nat.cast_pow, Nat.cast_pow, Int.cast_pow, Int.cast_pow] at h6
  simp only [Nat.cast_ofNat, Int.cast_ofNat, Int.cast_natCast] at h6
  rw [h5]
  set w := t.weight 16 da (dw j)
  set e := denseExact (t.ord - 1) j
  rw [show (420 : ℝ) * r * ((10 ^ 33) ^ t.ord * w) - 420 * e * (10 ^ 33) ^ t.ord = 420 * r * (10 ^ 33) ^ t.ord * (w - 1 / r * e) by
    field_simp, abs_mul, abs_of_pos (by positivity), mul_assoc] at h6
  have h7 := le_of_mul_le_mul_left (h6.trans_eq (mul_one _).symm) (by positivity)
  have : (1e-26 : ℝ) * 10 ^ 26 = 1 := by norm_num
  nlinarith

/-- C119: the interpolant at the fraction `θ` of a step is a method of order 7, to 25 digits. -/
theorem C119_order_conditions {K d : ℕ} (t : Tr K d) (ht : t.ord ≤ 7) {θ : ℝ} (hθ : θ ∈ Icc (0 : ℝ) 1) :
    |∑ j, basis θ j * t.weight 16 da (dw j) - θ ^ t.ord / t.density| ≤ 7e-26 := by
  have ho : 1 ≤ t.ord := by unfold Tr.ord; omega
  have hd := density_ge_one t
  have h1 := nest_close (fun j => t.weight 16 da (dw j)) (fun j => t.ord / t.density * denseExact (t.ord - 1) j) 1e-26 θ hθ.1 hθ.2
    fun j => weightD t ht j
  have h2 : nest (fun j => t.ord / t.density * denseExact (t.ord - 1) j) θ = θ ^ t.ord / t.density := by
    have e := nest_exact (t.ord - 1) (by omega) θ
    rw [nest_basis] at e ⊢
    have e2 : ∑ j, basis θ j * (t.ord / t.density * denseExact (t.ord - 1) j) = t.ord / t.density * ∑ j, basis θ j * denseExact (t.ord - 1) j := by
      rw [Finset.mul_sum]
      exact Finset.sum_congr rfl fun j _ => by ring
    rw [e2, e, Nat.sub_add_cancel ho, Nat.cast_sub ho]
    have : (0 : ℝ) < t.ord := by exact_mod_cast ho
    push_cast
    rw [sub_add_cancel]
    field_simp
  rw [h2, nest_basis] at h1
  linarith

/-! ## The method -/

theorem boundedD {θ : ℝ} (hθ : θ ∈ Icc (0 : ℝ) 1) : Bounded 16 da (fun i => ∑ j, basis θ j * dw j i) 150 3730 where
  row := by
    intro i hi
    interval_cases i <;>
      norm_num [Finset.sum_range_succ, da, rowsD, a21, a31, a32, a41, a43, a51, a53, a54, a61, a64, a65, a71, a74, a75, a76, a81, a84, a85, a86, a87,
        a91, a94, a95, a96, a97, a98, a101, a104, a105, a106, a107, a108, a109, a111, a114, a115, a116, a117, a118, a119, a1110,
        a121, a124, a125, a126, a127, a128, a129, a1210, a1211, b1, b6, b7, b8, b9, b10, b11, b12,
        a141, a147, a148, a149, a1410, a1411, a1412, a1413, a151, a156, a157, a158, a1511, a1512, a1513, a1514,
        a161, a166, a167, a168, a169, a1613, a1614, a1615, abs_of_pos, abs_of_neg]
  wt := by
    have h1 : ∀ j, ∑ i ∈ Finset.range 16, |dw j i| ≤ (![13, 14, 28, 53, 955, 1304, 1363] : Fin 7 → ℝ) j := by
      intro j
      fin_cases j <;>
        norm_num [Finset.sum_range_succ, dw, rowsW, b1, b6, b7, b8, b9, b10, b11, b12, d41, d46, d47, d48, d49, d410, d411, d412, d413, d414, d415, d416, d51, d56, d57, d58, d59, d510, d511, d512, d513, d514, d515, d516, d61, d66, d67, d68, d69, d610, d611, d612, d613, d614, d615, d616, d71, d76, d77, d78, d79, d710, d711, d712, d713, d714, d715, d716, abs_of_pos, abs_of_neg]
    calc ∑ i ∈ Finset.range 16, |∑ j, basis θ j * dw j i| ≤ ∑ i ∈ Finset.range 16, ∑ j, |dw j i| := by
          refine Finset.sum_le_sum fun i _ => (Finset.abs_sum_le_sum_abs _ _).trans (Finset.sum_le_sum fun j _ => ?_)
          rw [abs_mul]
          exact mul_le_of_le_one_left (abs_nonneg _) (basis_le hθ j)
      _ = ∑ j, ∑ i ∈ Finset.range 16, |dw j i| := Finset.sum_comm
      _ ≤ ∑ j, (![13, 14, 28, 53, 955, 1304, 1363] : Fin 7 → ℝ) j := Finset.sum_le_sum fun j _ => h1 j
      _ ≤ 3730 := by norm_num [Fin.sum_univ_succ]
  nonneg := by norm_num

theorem nodesD (i : ℕ) (hi : i < 16) : 0 ≤ dn i ∧ dn i ≤ 2 ∧ 0 ≤ rowSum da i ∧ rowSum da i ≤ 2 ∧ |dn i - rowSum da i| ≤ 1e-27 := by
  unfold rowSum
  simp only [abs_le]
  interval_cases i <;>
    norm_num [Finset.sum_range_succ, da, rowsD, dn, a21, a31, a32, a41, a43, a51, a53, a54, a61, a64, a65, a71, a74, a75, a76, a81, a84, a85, a86, a87,
        a91, a94, a95, a96, a97, a98, a101, a104, a105, a106, a107, a108, a109, a111, a114, a115, a116, a117, a118, a119, a1110,
        a121, a124, a125, a126, a127, a128, a129, a1210, a1211, b1, b6, b7, b8, b9, b10, b11, b12,
        a141, a147, a148, a149, a1410, a1411, a1412, a1413, a151, a156, a157, a158, a1511, a1512, a1513, a1514,
        a161, a166, a167, a168, a169, a1613, a1614, a1615,
      c2, c3, c4, c5, c6, c7, c8, c9, c10, c11, c14, c15, c16]

/-- The value the code saves at the fraction `θ` of a step. -/
noncomputable def between (f : Rhs n) (x : ℝ) (y : V n) (h θ : ℝ) : V n := nstep 16 da (fun i => ∑ j, basis θ j * dw j i) dn f x y h

theorem between_eq (f : Rhs n) (x : ℝ) (y : V n) (h θ : ℝ) :
    between f x y h θ = y + ∑ j, basis θ j • (h • ∑ i ∈ Finset.range 16, dw j i • nst da dn f x y h i) := by
  unfold between nstep
  congr 1
  simp only [Finset.smul_sum, Finset.sum_smul, smul_smul]
  rw [Finset.sum_comm]
  refine Finset.sum_congr rfl fun j _ => Finset.sum_congr rfl fun i _ => ?_
  congr 1; ring

set_option maxHeartbeats 2000000 in
/-- The coefficients `prepare_dense` computes are the weighted stages. -/
theorem prepare_stages (f : Rhs n) (x : ℝ) (y : V n) (h : ℝ) (r : Fin 8 → V n)
    (hr : r = prepareDense f x y (f x y) (f (x + h) (dy f x y (f x y) h).yout) (dy f x y (f x y) h) h) :
    r 0 = y ∧ ∀ j : Fin 7, r j.succ = h • ∑ i ∈ Finset.range 16, dw j i • nst da dn f x y h i := by
  have s1 : nst da dn f x y h 0 = f x y := by rw [nst_eq]; simp [dn]
  unfold dy at hr
  extract_lets k2 k3 k4 k5 k6 k7 k8 k9 k10 k11 k12 inc at hr
  have s2 : nst da dn f x y h 1 = k2 := by
    rw [nst_eq]; simp [Finset.sum_range_succ, da, dn, rowsD, s1, k2, smul_smul]
  have s3 : nst da dn f x y h 2 = k3 := by
    rw [nst_eq]; simp [Finset.sum_range_succ, da, dn, rowsD, s1, s2, k3]
  have s4 : nst da dn f x y h 3 = k4 := by
    rw [nst_eq]; simp [Finset.sum_range_succ, da, dn, rowsD, s1, s2, s3, k4]
  have s5 : nst da dn f x y h 4 = k5 := by
    rw [nst_eq]; simp [Finset.sum_range_succ, da, dn, rowsD, s1, s2, s3, s4, k5]
  have s6 : nst da dn f x y h 5 = k6 := by
    rw [nst_eq]; simp [Finset.sum_range_succ, da, dn, rowsD, s1, s2, s3, s4, s5, k6]
  have s7 : nst da dn f x y h 6 = k7 := by
    rw [nst_eq]; simp [Finset.sum_range_succ, da, dn, rowsD, s1, s2, s3, s4, s5, s6, k7]
  have s8 : nst da dn f x y h 7 = k8 := by
    rw [nst_eq]; simp [Finset.sum_range_succ, da, dn, rowsD, s1, s2, s3, s4, s5, s6, s7, k8]
  have s9 : nst da dn f x y h 8 = k9 := by
    rw [nst_eq]; simp [Finset.sum_range_succ, da, dn, rowsD, s1, s2, s3, s4, s5, s6, s7, s8, k9]
  have s10 : nst da dn f x y h 9 = k10 := by
    rw [nst_eq]; simp [Finset.sum_range_succ, da, dn, rowsD, s1, s2, s3, s4, s5, s6, s7, s8, s9, k10]
  have s11 : nst da dn f x y h 10 = k11 := by
    rw [nst_eq]; simp [Finset.sum_range_succ, da, dn, rowsD, s1, s2, s3, s4, s5, s6, s7, s8, s9, s10, k11]
  have s12 : nst da dn f x y h 11 = k12 := by
    rw [nst_eq]; simp [Finset.sum_range_succ, da, dn, rowsD, s1, s2, s3, s4, s5, s6, s7, s8, s9, s10, s11, k12]
  unfold prepareDense at hr
  dsimp only at hr
  have s13 : nst da dn f x y h 12 = f (x + h) (y + h • inc) := by
    rw [nst_eq]; simp [Finset.sum_range_succ, da, dn, rowsD, s1, s2, s3, s4, s5, s6, s7, s8, s9, s10, s11, s12, inc]
  generalize hk13 : f (x + h) (y + h • inc) = k13 at hr s13
  generalize hk14 : f (x + c14 * h) _ = k14 at hr
  have s14 : nst da dn f x y h 13 = k14 := by
    rw [nst_eq, ← hk14]; simp [Finset.sum_range_succ, da, dn, rowsD, s1, s2, s3, s4, s5, s6, s7, s8, s9, s10, s11, s12, s13]
  generalize hk15 : f (x + c15 * h) _ = k15 at hr
  have s15 : nst da dn f x y h 14 = k15 := by
    rw [nst_eq, ← hk15]; simp [Finset.sum_range_succ, da, dn, rowsD, s1, s2, s3, s4, s5, s6, s7, s8, s9, s10, s11, s12, s13, s14]
  generalize hk16 : f (x + c16 * h) _ = k16 at hr
  have s16 : nst da dn f x y h 15 = k16 := by
    rw [nst_eq, ← hk16]; simp [Finset.sum_range_succ, da, dn, rowsD, s1, s2, s3, s4, s5, s6, s7, s8, s9, s10, s11, s12, s13, s14, s15]
  obtain ⟨e0, e1, e2, e3, e4, e5, e6, e7⟩ := vec8 hr
  refine ⟨e0, fun j => ?_⟩
  fin_cases j
  · refine e1.trans ?_
    simp [Finset.sum_range_succ, dw, rowsW, s1, s2, s3, s4, s5, s6, s7, s8, s9, s10, s11, s12, s13, s14, s15, s16, inc]
  · refine e2.trans ?_
    simp [Finset.sum_range_succ, dw, rowsW, s1, s2, s3, s4, s5, s6, s7, s8, s9, s10, s11, s12, s13, s14, s15, s16, inc, sub_smul, smul_sub, smul_add]
    module
  · refine e3.trans ?_
    simp [Finset.sum_range_succ, dw, rowsW, s1, s2, s3, s4, s5, s6, s7, s8, s9, s10, s11, s12, s13, s14, s15, s16, inc, sub_smul, smul_sub, smul_add]
    module
  · refine e4.trans ?_
    simp [Finset.sum_range_succ, dw, rowsW, s1, s2, s3, s4, s5, s6, s7, s8, s9, s10, s11, s12, s13, s14, s15, s16]
  · refine e5.trans ?_
    simp [Finset.sum_range_succ, dw, rowsW, s1, s2, s3, s4, s5, s6, s7, s8, s9, s10, s11, s12, s13, s14, s15, s16]
  · refine e6.trans ?_
    simp [Finset.sum_range_succ, dw, rowsW, s1, s2, s3, s4, s5, s6, s7, s8, s9, s10, s11, s12, s13, s14, s15, s16]
  · refine e7.trans ?_
    simp [Finset.sum_range_succ, dw, rowsW, s1, s2, s3, s4, s5, s6, s7, s8, s9, s10, s11, s12, s13, s14, s15, s16]

/-- C119: what `dense_out` returns after an accepted step is the continuous method. -/
theorem C119_method (p : Prob n) (hd : p.dense = true) (s s' : Stepper n) (htry : ℝ) (c c' : Con) (hs : s.dydx = p.f s.x s.y)
    (hr : step p s htry c = some (.ok (), s', c')) (X : ℝ) :
    denseOut s' X s'.hdid = between p.f s.x s.y s'.hdid ((X - s.x) / s'.hdid) := by
  obtain ⟨-, hx, hxo, -, hy, hdy, hrc⟩ := step_ok hr
  rw [hd, if_pos rfl, hdy, hx, hy, hs] at hrc
  obtain ⟨r0, rj⟩ := prepare_stages p.f s.x s.y s'.hdid s'.rc hrc
  rw [between_eq]
  simp only [← rj]
  unfold denseOut
  simp only [hxo, r0]
  generalize (X - s.x) / s'.hdid = t
  congr 1
  simp only [Fin.sum_univ_succ, basis]
  show t • (s'.rc 1 + (1 - t) • (s'.rc 2 + t • (s'.rc 3 + (1 - t) • (s'.rc 4 + t • (s'.rc 5 + (1 - t) • (s'.rc 6 + t • s'.rc 7)))))) =
    t • s'.rc 1 + ((t * (1 - t)) • s'.rc 2 + ((t * (1 - t) * t) • s'.rc 3 + ((t * (1 - t) * t * (1 - t)) • s'.rc 4 +
      ((t * (1 - t) * t * (1 - t) * t) • s'.rc 5 + ((t * (1 - t) * t * (1 - t) * t * (1 - t)) • s'.rc 6 +
        ((t * (1 - t) * t * (1 - t) * t * (1 - t) * t) • s'.rc 7 + 0))))))
  module

end PyNLO.Ode
