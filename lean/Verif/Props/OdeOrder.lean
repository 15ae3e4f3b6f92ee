import Verif.Lemmas.RkTrees
import Verif.Props.OdeRuns
import Mathlib.Analysis.Analytic.Linear
import Mathlib.Algebra.Order.BigOperators.GroupWithZero.Finset
import Mathlib.Analysis.SpecialFunctions.ExpDeriv
import Mathlib.Analysis.Analytic.Constructions
import Mathlib.Tactic.IntervalCases

/-!
# C110: the order of the integrator

`dy` is the explicit Runge–Kutta method with the tableau of the code's constants; that tableau satisfies all order conditions
up to order 8 to 27 digits, the weights of the two error estimates those of order 5 and 3.  Hence, for every analytic
autonomous right-hand side, a step differs from the exact solution by a multiple of `h^9`, up to the rounding of the constants.
-/

open scoped BigOperators Topology
open Asymptotics Filter

namespace PyNLO.Ode

open RK dc

variable {n : ℕ}

/-- The coefficients, row by row (`dopr853_constants.py`). -/
noncomputable def rowsR : List (List ℝ) :=
  [ [],
    [a21],
    [a31, a32],
    [a41, 0, a43],
    [a51, 0, a53, a54],
    [a61, 0, 0, a64, a65],
    [a71, 0, 0, a74, a75, a76],
    [a81, 0, 0, a84, a85, a86, a87],
    [a91, 0, 0, a94, a95, a96, a97, a98],
    [a101, 0, 0, a104, a105, a106, a107, a108, a109],
    [a111, 0, 0, a114, a115, a116, a117, a118, a119, a1110],
    [a121, 0, 0, a124, a125, a126, a127, a128, a129, a1210, a1211]]

/-- The same times `10^32`. -/
def rowsZ : List (List ℤ) :=
  [ [],
    [5260015195876773187855875444880],
    [1972505698453789945445953291830, 5917517095361369836337859875490],
    [2958758547680684918168929937750, 0, 8876275643042054754506789813240],
    [24136513415926668550236979866500, 0, -88454947932828608534486496271700, 92483400326179200311573796654300],
    [3703703703703703703703703703700, 0, 0, 17082860872947387127960448217300, 12546768756682242501669181412300],
    [3710937500000000000000000000000, 0, 0, 17025221101954403931497806027200, 6021653898045596068502193972830, -1757812500000000000000000000000],
    [3709200011850479271087793198360, 0, 0, 17038392571223999381021405470500, 10726203044637328465180919916800, -1531943774862440175279361582360, 827378916381402288758473766002],
    [62411095871607571711442957781200, 0, 0, -336089262944694129406857109825000, -86821934684172600681818989145300, 2759209969944670830494156007970000, 2015406755047789340861867889790000, -4348988418106995884773662551440000],
    [47766253643826436589043390852700, 0, 0, -248811461997166764192642586468000, -59029082683684299637144647574300, 2123005144818119423472889498970000, 1527923363288242358325969229380000, -3328821096898486291944532655870000, -2033120170850862613582229285930],
    [-93714243008598732571704021658000, 0, 0, 518637242884406370830023853209000, 109143734899672957818500254654000, -814978701074692612513997267357000, -1852006565999695986415661807010000, 2273948709935050428189700567340000, 249360555267965238987089396762000, -304676447189821950038236690220000],
    [227331014751653820792359768449000, 0, 0, -1053449546673725019840666898790000, -200087205822486249909675718444000, -1795893186311879891727659505340000, 2794888452941996005084998088370000, -285899827713502369474065508674000, -887285693353062954433549289258000, 1236056717579430306472662015280000, 64339274601576353035597048404600]]

/-- The coefficients of the method. -/
noncomputable def ta (i l : ℕ) : ℝ := (rowsR.getD i []).getD l 0

/-- The weights of the step. -/
noncomputable def tb (i : ℕ) : ℝ := [b1, 0, 0, 0, 0, b6, b7, b8, b9, b10, b11, b12].getD i 0

/-- The weights of the fifth-order error estimate. -/
noncomputable def te5 (i : ℕ) : ℝ := [er1, 0, 0, 0, 0, er6, er7, er8, er9, er10, er11, er12].getD i 0

/-- The weights of the third-order error estimate. -/
noncomputable def te3 (i : ℕ) : ℝ := [b1 - bhh1, 0, 0, 0, 0, b6, b7, b8, b9 - bhh2, b10, b11, b12 - bhh3].getD i 0

def bZ : List ℤ := [5429373411656876223805357663630, 0, 0, 0, 0, 445031289275240888144113950566000, 189151789931450038304281599044000, -580120396001058478146721142270000, 31116436695781989440891606237000, -15216094966251607855617880680500, 20136540080403034837477653750100, 4471061572777259051768855690430]

def e5Z : List ℤ := [1312004499419488073250102996000, 0, 0, 0, 0, -122515644637620444072056975300000, -49575894965725019152140799520000, 166437718245498653696153041500000, -35032884874997368168864872900000, 33417911871301747902973188410000, 8192320648511571246570742613000, -2235530786388629525884427845000]

def e3Z : List ℤ := [-18980075407240761571470232887570, 0, 0, 0, 0, 445031289275240888144113950566000, 189151789931450038304281599044000, -580120396001058478146721142270000, -42268232132379196293244567917700, -15216094966251607855617880680500, 20136540080403034837477653750100, 2265179219836082581180620396310]

/-- The stages of a step, in order. -/
noncomputable def stages (g : V n → V n) (y : V n) (h : ℝ) : ℕ → V n
  | i => g (y + h • ∑ j : Fin i, ta i j • stages g y h j)

theorem stages_eq (g : V n → V n) (y : V n) (h : ℝ) (i : ℕ) :
    stages g y h i = g (y + h • ∑ j ∈ Finset.range i, ta i j • stages g y h j) := by
  conv_lhs => unfold stages
  rw [Finset.sum_range]

/-- `dy` is the Runge–Kutta method with these coefficients. -/
theorem dy_stages (g : V n → V n) (x : ℝ) (y : V n) (h : ℝ) :
    (dy (fun _ => g) x y (g y) h).yout = y + h • ∑ i ∈ Finset.range 12, tb i • stages g y h i ∧
    (dy (fun _ => g) x y (g y) h).yerr2 = ∑ i ∈ Finset.range 12, te5 i • stages g y h i ∧
    (dy (fun _ => g) x y (g y) h).yerr = ∑ i ∈ Finset.range 12, te3 i • stages g y h i := by
  generalize hst : dy (fun _ => g) x y (g y) h = st
  have s1 : stages g y h 0 = g y := by rw [stages_eq]; simp
  unfold dy at hst
  extract_lets k2 k3 k4 k5 k6 k7 k8 k9 k10 k11 k12 inc at hst
  have s2 : stages g y h 1 = k2 := by
    rw [stages_eq]; simp [Finset.sum_range_succ, ta, rowsR, s1, k2, smul_smul]
  have s3 : stages g y h 2 = k3 := by
    rw [stages_eq]; simp [Finset.sum_range_succ, ta, rowsR, s1, s2, k3]
  have s4 : stages g y h 3 = k4 := by
    rw [stages_eq]; simp [Finset.sum_range_succ, ta, rowsR, s1, s2, s3, k4]
  have s5 : stages g y h 4 = k5 := by
    rw [stages_eq]; simp [Finset.sum_range_succ, ta, rowsR, s1, s2, s3, s4, k5]
  have s6 : stages g y h 5 = k6 := by
    rw [stages_eq]; simp [Finset.sum_range_succ, ta, rowsR, s1, s2, s3, s4, s5, k6]
  have s7 : stages g y h 6 = k7 := by
    rw [stages_eq]; simp [Finset.sum_range_succ, ta, rowsR, s1, s2, s3, s4, s5, s6, k7]
  have s8 : stages g y h 7 = k8 := by
    rw [stages_eq]; simp [Finset.sum_range_succ, ta, rowsR, s1, s2, s3, s4, s5, s6, s7, k8]
  have s9 : stages g y h 8 = k9 := by
    rw [stages_eq]; simp [Finset.sum_range_succ, ta, rowsR, s1, s2, s3, s4, s5, s6, s7, s8, k9]
  have s10 : stages g y h 9 = k10 := by
    rw [stages_eq]; simp [Finset.sum_range_succ, ta, rowsR, s1, s2, s3, s4, s5, s6, s7, s8, s9, k10]
  have s11 : stages g y h 10 = k11 := by
    rw [stages_eq]; simp [Finset.sum_range_succ, ta, rowsR, s1, s2, s3, s4, s5, s6, s7, s8, s9, s10, k11]
  have s12 : stages g y h 11 = k12 := by
    rw [stages_eq]; simp [Finset.sum_range_succ, ta, rowsR, s1, s2, s3, s4, s5, s6, s7, s8, s9, s10, s11, k12]
  subst hst
  refine ⟨?_, ?_, ?_⟩
  · simp [Finset.sum_range_succ, tb, s1, s2, s3, s4, s5, s6, s7, s8, s9, s10, s11, s12, inc]
  · simp [Finset.sum_range_succ, te5, s1, s2, s3, s4, s5, s6, s7, s8, s9, s10, s11, s12]
  · simp [Finset.sum_range_succ, te3, s1, s2, s3, s4, s5, s6, s7, s8, s9, s10, s11, s12, inc, sub_smul]
    abel

/-- C110: `dy` is the explicit Runge–Kutta method with the coefficients `ta` and the weights `tb`. -/
theorem C110_method (g : V n → V n) (x : ℝ) (y : V n) (h : ℝ) :
    IsStep 12 ta tb g y h (stages g y h) (dy (fun _ => g) x y (g y) h).yout :=
  ⟨fun i _ => stages_eq g y h i, (dy_stages g x y h).1⟩

/-! ## The order conditions -/

theorem scaled : Scaled (10 ^ 32) rowsZ ta where
  len := by
    intro i hi
    have hi' : i < 12 := hi
    interval_cases i <;> rfl
  coef := by
    intro i hi l hl
    have hi' : i < 12 := hi
    interval_cases i <;> interval_cases l <;>
      norm_num [rowsZ, ta, rowsR, a21, a31, a32, a41, a43, a51, a53, a54, a61, a64, a65, a71, a74, a75, a76, a81, a84, a85, a86, a87,
        a91, a94, a95, a96, a97, a98, a101, a104, a105, a106, a107, a108, a109, a111, a114, a115, a116, a117, a118, a119, a1110,
        a121, a124, a125, a126, a127, a128, a129, a1210, a1211]

theorem scaled_b (i : ℕ) (hi : i < rowsZ.length) : ((bZ.getD i 0 : ℤ) : ℝ) = 10 ^ 32 * tb i := by
  have hi' : i < 12 := hi
  interval_cases i <;> norm_num [bZ, tb, b1, b6, b7, b8, b9, b10, b11, b12]

theorem scaled_e5 (i : ℕ) (hi : i < rowsZ.length) : ((e5Z.getD i 0 : ℤ) : ℝ) = 10 ^ 32 * te5 i := by
  have hi' : i < 12 := hi
  interval_cases i <;> norm_num [e5Z, te5, er1, er6, er7, er8, er9, er10, er11, er12]

theorem scaled_e3 (i : ℕ) (hi : i < rowsZ.length) : ((e3Z.getD i 0 : ℤ) : ℝ) = 10 ^ 32 * te3 i := by
  have hi' : i < 12 := hi
  interval_cases i <;> norm_num [e3Z, te3, b1, b6, b7, b8, b9, b10, b11, b12, bhh1, bhh2, bhh3]

/-- The test of a tree: `|γΦ - 1| ≤ 10⁻²⁷`. -/
def passes (t : BT) : Bool :=
  decide (((t.ord * t.rdens : ℕ) * dotp bZ (t.ints rowsZ) - (10 ^ 32) ^ t.ord).natAbs * 10 ^ 27 ≤ (10 ^ 32) ^ t.ord)

/-- The test of a tree for an error estimate: `|Φ| ≤ 10⁻²⁷`. -/
def vanishes (b : List ℤ) (t : BT) : Bool :=
  decide ((dotp b (t.ints rowsZ)).natAbs * 10 ^ 27 ≤ (10 ^ 32) ^ t.ord)

theorem all_pass : (levels 8).all (fun l => l.all passes) = true := by decide +kernel

theorem all_vanish5 : (levels 5).all (fun l => l.all (vanishes e5Z)) = true := by decide +kernel

theorem all_vanish3 : (levels 3).all (fun l => l.all (vanishes e3Z)) = true := by decide +kernel

/-- C110: every order condition up to order 8 holds to 27 digits: for each rooted tree with at most 8 vertices the elementary
weight of the tableau is the reciprocal of the density. -/
theorem C110_order_conditions {K d : ℕ} (t : Tr K d) (ht : t.ord ≤ 8) : |t.density * t.weight 12 ta tb - 1| ≤ 1e-27 := by
  have h1 := all_levels all_pass (Tr.toBT t) (by rw [toBT_ord]; exact ht)
  have h2 := of_decide_eq_true h1
  have h3 := weight_eq scaled bZ tb rfl scaled_b t
  have h4 := toBT_density t
  rw [show rowsZ.length = 12 from rfl] at h3
  have hS : (0 : ℝ) < (10 ^ 32) ^ t.ord := by positivity
  have h5 : |((BT.ord (Tr.toBT t) * BT.rdens (Tr.toBT t) : ℕ) : ℝ) * ((dotp bZ ((Tr.toBT t).ints rowsZ) : ℤ) : ℝ) - (10 ^ 32) ^ t.ord|
      * 10 ^ 27 ≤ (10 ^ 32) ^ t.ord := by
    rw [toBT_ord] at h2
    have h6 : ((((t.ord * BT.rdens (Tr.toBT t) : ℕ) * dotp bZ ((Tr.toBT t).ints rowsZ) - (10 ^ 32) ^ t.ord : ℤ).natAbs * 10 ^ 27 : ℕ) : ℝ) ≤
        (((10 ^ 32) ^ t.ord : ℕ) : ℝ) := by exact_mod_cast h2
    rw [toBT_ord]
    rw [Nat.cast_mul, Nat.cast_natAbs, Int.cast_abs] at h6
    push_cast at h6 ⊢
    norm_num only at h6 ⊢
    exact h6
  rw [h4, h3, show t.density * ((10 ^ 32) ^ t.ord * t.weight 12 ta tb) - (10 ^ 32) ^ t.ord =
    (10 ^ 32) ^ t.ord * (t.density * t.weight 12 ta tb - 1) by ring, abs_mul, abs_of_pos hS, mul_assoc] at h5
  have h6 := le_of_mul_le_mul_left (h5.trans_eq (mul_one _).symm) hS
  have : (1e-27 : ℝ) * 10 ^ 27 = 1 := by norm_num
  nlinarith

theorem vanish_weight {m : ℕ} {bz : List ℤ} {b : ℕ → ℝ} (hall : (levels m).all (fun l => l.all (vanishes bz)) = true)
    (hl : bz.length = rowsZ.length) (hb : ∀ i < rowsZ.length, ((bz.getD i 0 : ℤ) : ℝ) = 10 ^ 32 * b i)
    {K d : ℕ} (t : Tr K d) (ht : t.ord ≤ m) : |t.weight 12 ta b| ≤ 1e-27 := by
  have h1 := all_levels hall (Tr.toBT t) (by rw [toBT_ord]; exact ht)
  have h2 := of_decide_eq_true h1
  have h3 := weight_eq scaled bz b hl hb t
  rw [show rowsZ.length = 12 from rfl] at h3
  rw [toBT_ord] at h2
  have hS : (0 : ℝ) < (10 ^ 32) ^ t.ord := by positivity
  have h6 : (((dotp bz ((Tr.toBT t).ints rowsZ) : ℤ).natAbs * 10 ^ 27 : ℕ) : ℝ) ≤ (((10 ^ 32) ^ t.ord : ℕ) : ℝ) := by exact_mod_cast h2
  rw [Nat.cast_mul, Nat.cast_natAbs, Int.cast_abs, h3, abs_mul, abs_of_pos hS] at h6
  rw [Nat.cast_pow, Nat.cast_pow, Nat.cast_pow, Nat.cast_ofNat, mul_assoc] at h6
  have h7 := le_of_mul_le_mul_left (h6.trans_eq (mul_one _).symm) hS
  have : (1e-27 : ℝ) * 10 ^ 27 = 1 := by norm_num
  nlinarith

/-- C110: the weights of the two error estimates satisfy the homogeneous conditions up to orders 5 and 3. -/
theorem C110_estimate_conditions {K d : ℕ} (t : Tr K d) :
    (t.ord ≤ 5 → |t.weight 12 ta te5| ≤ 1e-27) ∧ (t.ord ≤ 3 → |t.weight 12 ta te3| ≤ 1e-27) :=
  ⟨vanish_weight all_vanish5 rfl scaled_e5 t, vanish_weight all_vanish3 rfl scaled_e3 t⟩

/-- The tree without branches. -/
def chain : ∀ d, Tr 1 (d + 1)
  | 0 => ⟨0, Fin.elim0⟩
  | d + 1 => ⟨1, fun _ => chain d⟩

theorem chain_ord (d : ℕ) : (chain d).ord = d + 1 := by
  unfold Tr.ord
  congr 1
  induction d with
  | zero => rfl
  | succ d ih =>
    show ∑ _j : Fin ((1 : Fin 2) : ℕ), ((chain d).below + 1) = d + 1
    rw [ih]; simp

theorem chain_density (d : ℕ) : (chain d).density = ((d + 1).factorial : ℝ) := by
  induction d with
  | zero => show ((∑ j : Fin ((0 : Fin 2) : ℕ), _ + 1 : ℕ) : ℝ) * ∏ j : Fin ((0 : Fin 2) : ℕ), _ = _; simp
  | succ d ih =>
    show ((∑ _j : Fin ((1 : Fin 2) : ℕ), ((chain d).below + 1) + 1 : ℕ) : ℝ) * ∏ _j : Fin ((1 : Fin 2) : ℕ), (chain d).density = _
    have := chain_ord d
    unfold Tr.ord at this
    rw [ih, this, Nat.factorial_succ (d + 1)]; simp

/-- C110: the order is not 9. -/
theorem C110_sharp : ∃ t : Tr 1 9, t.ord = 9 ∧ 0.02 < |t.density * t.weight 12 ta tb - 1| := by
  refine ⟨chain 8, chain_ord 8, ?_⟩
  have h3 := weight_eq scaled bZ tb rfl scaled_b (chain 8)
  rw [show rowsZ.length = 12 from rfl, chain_ord] at h3
  rw [chain_density]
  have h4 : dotp bZ ((Tr.toBT (chain 8)).ints rowsZ) * (9).factorial * 100 < 98 * (10 ^ 32) ^ 9 := by decide +kernel
  have h5 : ((dotp bZ ((Tr.toBT (chain 8)).ints rowsZ) : ℤ) : ℝ) * ((9).factorial : ℝ) * 100 < 98 * (10 ^ 32) ^ 9 := by exact_mod_cast h4
  rw [h3] at h5
  have hS : (0 : ℝ) < (10 ^ 32) ^ (8 + 1) := by positivity
  have h6 : (10 ^ 32 : ℝ) ^ (8 + 1) * ((chain 8).weight 12 ta tb * ((9).factorial : ℝ) * 100) < (10 ^ 32) ^ (8 + 1) * 98 := by
    have e1 : ∀ A w F : ℝ, A * (w * F * 100) = A * w * F * 100 := fun A w F => by ring
    rw [e1, mul_comm _ (98 : ℝ)]
    exact h5
  have h7 := lt_of_mul_lt_mul_left h6 hS.le
  rw [lt_abs]
  right
  norm_num at h7 ⊢
  linarith

/-! ## Accuracy -/

theorem density_ge_one {K : ℕ} : ∀ {d : ℕ} (t : Tr K d), 1 ≤ t.density
  | 0, t => nomatch t
  | d + 1, ⟨k, ts⟩ => by
    have h1 : (1 : ℝ) ≤ ((∑ j, ((ts j).below + 1) + 1 : ℕ) : ℝ) := by exact_mod_cast Nat.le_add_left 1 _
    have h2 : (1 : ℝ) ≤ ∏ j, (ts j).density := Finset.one_le_prod fun j _ => density_ge_one (ts j)
    exact one_le_mul_of_one_le_of_one_le h1 h2

/-- The rounding of the literals, weighted by the elementary differentials. -/
noncomputable def rounding (p : FormalMultilinearSeries ℝ (V n) (V n)) (m : ℕ) (h : ℝ) : ℝ :=
  ∑ t : Tr m 12, if t.ord ≤ m + 1 then |h| ^ t.ord * ‖t.diff (fun k => p k)‖ else 0

/-- C110: one step of the integrator differs from the exact solution by a multiple of `h^9`, and the rounding of the
literals in the 27th digit, for every autonomous equation with analytic right-hand side. -/
theorem C110_local_error {g : V n → V n} {y : V n} {p : FormalMultilinearSeries ℝ (V n) (V n)} (hp : HasFPowerSeriesAt g p y)
    {Y : ℝ → V n} (hY0 : Y 0 = y) (hY : ∀ᶠ h in 𝓝 (0 : ℝ), HasDerivAt Y (g (Y h)) h) :
    ∃ C δ : ℝ, 0 < δ ∧ ∀ x h : ℝ, |h| < δ →
      ‖(dy (fun _ => g) x y (g y) h).yout - Y h‖ ≤ 1e-27 * rounding p 7 h + C * |h| ^ 9 := by
  have h1 := local_error (K := 7) hp 12 (by norm_num) ta tb (stages g y) (fun h => (dy (fun _ => g) 0 y (g y) h).yout)
    (fun h => C110_method g 0 y h) hY0 hY
  obtain ⟨C, hC⟩ := h1.bound
  obtain ⟨δ, hδ, hball⟩ := Metric.eventually_nhds_iff.mp hC
  refine ⟨C, δ, hδ, fun x h hh => ?_⟩
  have h2 := hball (y := h) (by rw [dist_zero_right]; exact hh)
  rw [(dy_stages g x y h).1, ← (dy_stages g 0 y h).1]
  rw [norm_pow, Real.norm_eq_abs] at h2
  have h3 : ‖∑ t : Tr 7 12, if t.ord ≤ 7 + 1 then
      (h ^ t.ord * (t.weight 12 ta tb - 1 / t.density)) • t.diff (fun k => p k) else 0‖ ≤ 1e-27 * rounding p 7 h := by
    unfold rounding
    rw [Finset.mul_sum]
    refine norm_sum_le_of_le _ fun t _ => ?_
    split_ifs with ht
    · rw [norm_smul, norm_mul, norm_pow, Real.norm_eq_abs, Real.norm_eq_abs]
      have h4 := C110_order_conditions t ht
      have h5 := density_ge_one t
      have h6 : |t.weight 12 ta tb - 1 / t.density| ≤ 1e-27 := by
        have e : t.weight 12 ta tb - 1 / t.density = (t.density * t.weight 12 ta tb - 1) / t.density := by
          field_simp
        rw [e, abs_div, abs_of_pos (by linarith : 0 < t.density)]
        exact (div_le_self (abs_nonneg _) h5).trans h4
      have h7 : 0 ≤ |h| ^ t.ord * ‖t.diff (fun k => p k)‖ := mul_nonneg (pow_nonneg (abs_nonneg h) _) (norm_nonneg _)
      calc |h| ^ t.ord * |t.weight 12 ta tb - 1 / t.density| * ‖t.diff (fun k => p k)‖
          = |t.weight 12 ta tb - 1 / t.density| * (|h| ^ t.ord * ‖t.diff (fun k => p k)‖) := by ring
        _ ≤ 1e-27 * (|h| ^ t.ord * ‖t.diff (fun k => p k)‖) := mul_le_mul_of_nonneg_right h6 h7
    · simp
  have h8 := norm_add_le ((dy (fun _ => g) 0 y (g y) h).yout - Y h - ∑ t : Tr 7 12, if t.ord ≤ 7 + 1 then
      (h ^ t.ord * (t.weight 12 ta tb - 1 / t.density)) • t.diff (fun k => p k) else 0) (∑ t : Tr 7 12, if t.ord ≤ 7 + 1 then
      (h ^ t.ord * (t.weight 12 ta tb - 1 / t.density)) • t.diff (fun k => p k) else 0)
  rw [sub_add_cancel] at h8
  linarith

theorem estimate_bound {g : V n → V n} {y : V n} {p : FormalMultilinearSeries ℝ (V n) (V n)} (hp : HasFPowerSeriesAt g p y)
    (m : ℕ) (b : ℕ → ℝ) (hb : ∀ t : Tr m 12, t.ord ≤ m + 1 → |t.weight 12 ta b| ≤ 1e-27) :
    ∃ C δ : ℝ, 0 < δ ∧ ∀ h : ℝ, |h| < δ →
      ‖h • ∑ i ∈ Finset.range 12, b i • stages g y h i‖ ≤ 1e-27 * rounding p m h + C * |h| ^ (m + 2) := by
  have h1 := weighted_taylor (K := m) hp 12 ta b (stages g y) fun h i _ => stages_eq g y h i
  have h3 := series_isBigO (K := m) (d := 12) (F := fun t => t.diff (fun k => p k))
    (fun t => if t.ord ≤ m + 1 then 0 else t.weight 12 ta b) (fun t => t.below) (m + 1) (fun t ht => by
      by_contra hc
      exact ht (if_pos (by unfold Tr.ord; omega)))
  obtain ⟨C, hC⟩ := (h1.add h3).bound
  obtain ⟨δ, hδ, hball⟩ := Metric.eventually_nhds_iff.mp hC
  refine ⟨C, δ, hδ, fun h hh => ?_⟩
  have h2 := hball (y := h) (by rw [dist_zero_right]; exact hh)
  rw [norm_pow, Real.norm_eq_abs] at h2
  set T := ∑ t : Tr m 12, if t.ord ≤ m + 1 then (h ^ t.below * t.weight 12 ta b) • t.diff (fun k => p k) else 0 with hT
  have e : ∑ t : Tr m 12, (h ^ t.below * t.weight 12 ta b) • t.diff (fun k => p k) =
      T + ∑ t : Tr m 12, (h ^ t.below * if t.ord ≤ m + 1 then 0 else t.weight 12 ta b) • t.diff (fun k => p k) := by
    rw [hT, ← Finset.sum_add_distrib]
    refine Finset.sum_congr rfl fun t _ => ?_
    split_ifs <;> simp
  have h4 : |h| * ‖T‖ ≤ 1e-27 * rounding p m h := by
    unfold rounding
    rw [Finset.mul_sum]
    refine (mul_le_mul_of_nonneg_left (norm_sum_le _ _) (abs_nonneg h)).trans ?_
    rw [Finset.mul_sum]
    refine Finset.sum_le_sum fun t _ => ?_
    split_ifs with ht
    · rw [norm_smul, norm_mul, norm_pow, Real.norm_eq_abs, Real.norm_eq_abs, Tr.ord, pow_succ]
      have h7 : 0 ≤ |h| ^ t.below * |h| * ‖t.diff (fun k => p k)‖ :=
        mul_nonneg (mul_nonneg (pow_nonneg (abs_nonneg h) _) (abs_nonneg h)) (norm_nonneg _)
      calc |h| * (|h| ^ t.below * |t.weight 12 ta b| * ‖t.diff (fun k => p k)‖)
          = |t.weight 12 ta b| * (|h| ^ t.below * |h| * ‖t.diff (fun k => p k)‖) := by ring
        _ ≤ 1e-27 * (|h| ^ t.below * |h| * ‖t.diff (fun k => p k)‖) := mul_le_mul_of_nonneg_right (hb t ht) h7
    · simp
  have h5 : ‖∑ i ∈ Finset.range 12, b i • stages g y h i - T‖ ≤ C * |h| ^ (m + 1) := by
    refine le_trans (le_of_eq ?_) h2
    congr 1
    rw [e]; abel
  have h6 : ‖∑ i ∈ Finset.range 12, b i • stages g y h i‖ ≤ C * |h| ^ (m + 1) + ‖T‖ := by
    have := norm_add_le (∑ i ∈ Finset.range 12, b i • stages g y h i - T) T
    rw [sub_add_cancel] at this
    linarith
  rw [norm_smul, Real.norm_eq_abs]
  calc |h| * ‖∑ i ∈ Finset.range 12, b i • stages g y h i‖ ≤ |h| * (C * |h| ^ (m + 1) + ‖T‖) :=
        mul_le_mul_of_nonneg_left h6 (abs_nonneg h)
    _ = |h| * ‖T‖ + C * |h| ^ (m + 2) := by ring
    _ ≤ _ := by linarith

/-- C110: the two error estimates are of the orders the step-size control assumes: `h·yerr2` is a multiple of `h^6` and
`h·yerr` of `h^4`, up to the rounding of the literals. -/
theorem C110_estimates {g : V n → V n} {y : V n} {p : FormalMultilinearSeries ℝ (V n) (V n)} (hp : HasFPowerSeriesAt g p y) :
    ∃ C δ : ℝ, 0 < δ ∧ ∀ x h : ℝ, |h| < δ →
      ‖h • (dy (fun _ => g) x y (g y) h).yerr2‖ ≤ 1e-27 * rounding p 4 h + C * |h| ^ 6 ∧
      ‖h • (dy (fun _ => g) x y (g y) h).yerr‖ ≤ 1e-27 * rounding p 2 h + C * |h| ^ 4 := by
  obtain ⟨C5, δ5, p5, h5⟩ := estimate_bound hp 4 te5 fun t ht => (C110_estimate_conditions t).1 ht
  obtain ⟨C3, δ3, p3, h3⟩ := estimate_bound hp 2 te3 fun t ht => (C110_estimate_conditions t).2 ht
  refine ⟨max C5 C3, min δ5 δ3, lt_min p5 p3, fun x h hh => ⟨?_, ?_⟩⟩
  · rw [(dy_stages g x y h).2.1]
    refine (h5 h (hh.trans_le (min_le_left _ _))).trans ?_
    have := mul_le_mul_of_nonneg_right (le_max_left C5 C3) (pow_nonneg (abs_nonneg h) 6)
    linarith
  · rw [(dy_stages g x y h).2.2]
    refine (h3 h (hh.trans_le (min_le_right _ _))).trans ?_
    have := mul_le_mul_of_nonneg_right (le_max_right C5 C3) (pow_nonneg (abs_nonneg h) 4)
    linarith

/-- C110: every accepted step of the stepper, whatever the tolerances and the trial step, is this accurate. -/
theorem C110_step {g : V n → V n} {y : V n} {p : FormalMultilinearSeries ℝ (V n) (V n)} (hp : HasFPowerSeriesAt g p y)
    {Y : ℝ → V n} (hY0 : Y 0 = y) (hY : ∀ᶠ h in 𝓝 (0 : ℝ), HasDerivAt Y (g (Y h)) h) :
    ∃ C δ : ℝ, 0 < δ ∧ ∀ (q : Prob n) (s s' : Stepper n) (htry : ℝ) (c c' : Con), q.f = (fun _ => g) → s.y = y → s.dydx = g y →
      step q s htry c = some (.ok (), s', c') → |s'.hdid| < δ →
        ‖s'.y - Y s'.hdid‖ ≤ 1e-27 * rounding p 7 s'.hdid + C * |s'.hdid| ^ 9 := by
  obtain ⟨C, δ, hδ, hb⟩ := C110_local_error hp hY0 hY
  refine ⟨C, δ, hδ, fun q s s' htry c c' hf hy hd hr hh => ?_⟩
  obtain ⟨-, -, -, -, h1, -⟩ := step_ok hr
  rw [h1, hf, hy, hd]
  exact hb s.x s'.hdid hh

/-- `y' = y` and `y' = 1` meet the hypotheses, the latter with an accepted step. -/
theorem C110_nonvacuous (y : V 1) :
    (HasFPowerSeriesAt (id : V 1 → V 1) ((ContinuousLinearMap.id ℝ (V 1)).fpowerSeries y) y ∧
      (fun h : ℝ => Real.exp h • y) 0 = y ∧ ∀ᶠ h in 𝓝 (0 : ℝ), HasDerivAt (fun h : ℝ => Real.exp h • y) (id (Real.exp h • y)) h) ∧
    (HasFPowerSeriesAt (fun _ => 1 : V 1 → V 1) (constFormalMultilinearSeries ℝ (V 1) 1) y ∧
      ∀ δ : ℝ, 0 < δ → ∃ h, 0 < |h| ∧ |h| < δ ∧
      ∃ s' c', step (unitProb true) ⟨0, 0, 0, 0, y, fun _ => 1, 0⟩ h Con.new = some (.ok (), s', c') ∧ s'.hdid = h) := by
  refine ⟨⟨(ContinuousLinearMap.id ℝ (V 1)).hasFPowerSeriesAt y, by simp, Eventually.of_forall fun h => ?_⟩,
    hasFPowerSeriesAt_const, fun δ hδ => ?_⟩
  · exact (Real.hasDerivAt_exp h).smul_const y
  · have hp : 0 < min (δ / 2) 1 := lt_min (by linarith) one_pos
    obtain ⟨s', c', h1, -, h2, -⟩ := unit_step true ⟨0, 0, 0, 0, y, fun _ => 1, 0⟩ rfl (min (δ / 2) 1) hp.ne'
      (by rw [abs_of_pos hp]; exact min_le_right _ _) Con.new
    refine ⟨min (δ / 2) 1, abs_pos.mpr hp.ne', ?_, s', c', h1, h2⟩
    rw [abs_of_pos hp]
    exact (min_le_left _ _).trans_lt (by linarith)

end PyNLO.Ode
