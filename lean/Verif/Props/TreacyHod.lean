import Verif.Props.Treacy
import Verif.Lemmas.Interp
import Verif.Props.CrystalStencil
import Mathlib.Analysis.SpecialFunctions.Trigonometric.InverseDeriv
import Mathlib.Analysis.SpecialFunctions.Sqrt
import Mathlib.Analysis.Real.Pi.Bounds

/-! # Higher orders of the dispersion of a grating compressor (C79) -/

namespace PyNLO.Treacy

open Real Filter Topology Set
open scoped Nat

theorem dxHod_pos : 0 < dxHod := by
  unfold dxHod
  positivity

theorem node_injective : Function.Injective node := by
  intro i j h
  simp only [node, sub_left_inj, Nat.cast_inj] at h
  exact Fin.ext h

theorem abs_node (k : Fin 101) : |node k| ≤ 50 := by
  have h1 : (0 : ℝ) ≤ ((k : ℕ) : ℝ) := Nat.cast_nonneg _
  have h2 : ((k : ℕ) : ℝ) ≤ 100 := by exact_mod_cast Nat.lt_succ_iff.1 k.isLt
  rw [node, abs_le]
  constructor <;> linarith

theorem foldl_val {ι : Type*} (w : ι → ℝ) {F : ι → NFlt} {f : ι → ℝ} : ∀ (l : List ι) (_ : ∀ k ∈ l, F k = .val (f k)) (a : ℝ),
    l.foldl (fun acc k => NFlt.map₂ (fun acc y => acc + w k * y) acc (F k)) (.val a) = .val (a + (l.map fun k => w k * f k).sum)
  | [], _, a => by simp
  | k :: l, h, a => by
    rw [List.foldl_cons, h k List.mem_cons_self, NFlt.map₂, foldl_val w l (fun j hj => h j (List.mem_cons_of_mem _ hj)), List.map_cons, List.sum_cons,
      add_assoc]

/-- `misc.derivative` of a smooth function. -/
theorem derivative101_smooth {F : ℝ → NFlt} {f : ℝ → ℝ} {x M : ℝ} (hF : ∀ y, |y - x| ≤ 50 * dxHod → F y = .val (f y))
    (hc : ∀ y, |y - x| ≤ 50 * dxHod → ContDiffAt ℝ 101 f y) (hM : ∀ y, |y - x| ≤ 50 * dxHod → |iteratedDeriv 101 f y| ≤ M) {n : ℕ} (hn : n < 101) :
    ∃ v, derivative101 F x n = .ok (.val v) ∧ |v - iteratedDeriv n f x| ≤ M * (50 * dxHod) ^ (101 - n) / (101 - n) ! := by
  have hd := dxHod_pos
  have hin : ∀ s : ℝ, |s| ≤ 50 → |x + s * dxHod - x| ≤ 50 * dxHod := by
    intro s hs
    rw [add_sub_cancel_left, abs_mul, abs_of_pos hd]
    exact mul_le_mul_of_nonneg_right hs hd.le
  refine ⟨(∑ k, weights101 ⟨n, hn⟩ k * f (x + node k * dxHod)) / dxHod ^ n, ?_, ?_⟩
  · rw [derivative101, dif_pos hn, foldl_val (f := fun k => f (x + node k * dxHod)) _ _ fun k _ => hF _ (hin _ (abs_node k)), NFlt.map, zero_add,
      ← List.sum_ofFn, List.ofFn_eq_map]
  · have hin' : ∀ s ∈ Icc (-50 : ℝ) 50, |x + s * dxHod - x| ≤ 50 * dxHod := fun s hs => hin s (abs_le.2 hs)
    have b := Interp.vandermonde_error node_injective abs_node (f := fun s => f (x + s * dxHod)) (M := dxHod ^ 101 * M)
      (fun s hs => by
        have := hc _ (hin' s hs)
        exact ContDiffAt.comp s this (by fun_prop))
      (fun s hs => by
        rw [Interp.iteratedDeriv_affine, abs_mul, abs_of_pos (pow_pos hd 101)]
        exact mul_le_mul_of_nonneg_left (hM _ (hin' s hs)) (by positivity)) ⟨n, hn⟩
    rw [Interp.iteratedDeriv_affine, zero_mul, add_zero] at b
    change |∑ k, weights101 ⟨n, hn⟩ k * f (x + node k * dxHod) - _| ≤ _ at b
    have hp : 0 < dxHod ^ n := pow_pos hd n
    have e : (∑ k, weights101 ⟨n, hn⟩ k * f (x + node k * dxHod)) / dxHod ^ n - iteratedDeriv n f x =
        (∑ k, weights101 ⟨n, hn⟩ k * f (x + node k * dxHod) - dxHod ^ n * iteratedDeriv n f x) / dxHod ^ n := by
      rw [sub_div, mul_div_cancel_left₀ _ hp.ne']
    rw [e, abs_div, abs_of_pos hp, div_le_iff₀ hp]
    refine b.trans (le_of_eq ?_)
    dsimp only
    generalize dxHod = d
    have : d ^ 101 = d ^ (101 - n) * d ^ n := by rw [← pow_add]; congr 1; omega
    rw [this, mul_pow]
    ring

/-- A grating that diffracts two frequencies diffracts those between. -/
theorem Diffracts.between {t : T} {a b x : ℝ} (ha : Diffracts t a) (hb : Diffracts t b) (h1 : a ≤ x) (h2 : x ≤ b) : Diffracts t x := by
  have hx : 0 < x := ha.pos.trans_le h1
  have hla := ha.lo
  have hha := ha.hi
  have hlb := hb.lo
  have hhb := hb.hi
  rw [sine_lOfW] at hla hha hlb hhb
  have hc : (0 : ℝ) < 2 * π * cMks := by
    have : (0 : ℝ) < cMks := by norm_num [cMks]
    positivity
  have e : ∀ y, 2 * π * cMks / (y * t.d) = 1 / y * (2 * π * cMks / t.d) := fun y => by
    rw [div_mul_div_comm, one_mul]
  have i1 : 1 / x ≤ 1 / a := one_div_le_one_div_of_le ha.pos h1
  have i2 : 1 / b ≤ 1 / x := one_div_le_one_div_of_le hx h2
  refine ⟨ha.d, hx, ?_, ?_⟩ <;> rw [sine_lOfW, e] <;> rw [e] at hla hha hlb hhb
  all_goals
    generalize 2 * π * cMks / t.d = q at *
    rcases le_total 0 q with hq | hq
    · have j1 := mul_le_mul_of_nonneg_right i1 hq
      have j2 := mul_le_mul_of_nonneg_right i2 hq
      linarith
    · have j1 := mul_le_mul_of_nonpos_right i1 hq
      have j2 := mul_le_mul_of_nonpos_right i2 hq
      linarith

/-- The group delay is smooth. -/
theorem Diffracts.contDiffAt {t : T} {ω : ℝ} (h : Diffracts t ω) (G : ℝ) (n : WithTop ℕ∞) : ContDiffAt ℝ n (t.tau G) ω := by
  have hs : ContDiffAt ℝ n (fun x => t.sine (lOfW x)) ω := by
    have : (fun x => t.sine (lOfW x)) = fun x => 2 * π * cMks / t.d * x⁻¹ - sin t.g := by
      funext x
      rw [sine_lOfW, div_mul_eq_div_div, div_right_comm, div_eq_mul_inv _ x]
    rw [this]
    exact (contDiffAt_const.mul (contDiffAt_inv ℝ h.pos.ne')).sub contDiffAt_const
  have ha : ContDiffAt ℝ n (fun x => arcsin (t.sine (lOfW x))) ω := ContDiffAt.comp (g := arcsin) ω (Real.contDiffAt_arcsin h.lo.ne' h.hi.ne) hs
  have hcos : cos (arcsin (t.sine (lOfW ω))) ≠ 0 := by
    rw [cos_arcsin]
    exact (sqrt_pos.2 h.one_sub).ne'
  unfold T.tau T.dphiOf
  simp only [sub_sub_cancel]
  exact ((contDiffAt_const.div ha.cos hcos).mul (contDiffAt_const.add (contDiffAt_const.sub ha).cos)).div_const _

theorem Diffracts.gdd {t : T} {x : ℝ} (hx : Diffracts t x) (G : ℝ) : t.gdd (lOfW x) G = .val (2 * deriv (t.tau G) x) := by
  obtain ⟨τ, v, h1, h2, -, h4⟩ := C79_derivative hx G
  rw [h4]
  have e : τ =ᶠ[𝓝 x] t.tau G := by
    filter_upwards [h1, hx.near] with y hy hy'
    rw [hy'.dphi G] at hy
    exact (NFlt.val.inj hy).symm
  rw [← e.deriv_eq, h2.deriv]

theorem hod_tau {t : T} {ω : ℝ} (hlo : Diffracts t (ω - 2 * π * 5e9)) (hhi : Diffracts t (ω + 2 * π * 5e9)) (G : ℝ) :
    (∀ x, |x - ω| ≤ 2 * π * 5e9 → t.dphi x G = .val (t.tau G x)) ∧ (∀ x, |x - ω| ≤ 2 * π * 5e9 → ContDiffAt ℝ 102 (t.tau G) x) ∧
      (∀ n M, 2 ≤ n → n ≤ 101 → (∀ x, |x - ω| ≤ 2 * π * 5e9 → |iteratedDeriv 102 (t.tau G) x| ≤ M) →
        ∃ v, t.hod (lOfW ω) G (n + 1) = .ok (.val v) ∧ |v - 2 * iteratedDeriv n (t.tau G) ω| ≤ 2 * M * (2 * π * 5e9) ^ (102 - n) / (102 - n) !) ∧
      ∀ n, (n < 2 ∨ 101 < n) → t.hod (lOfW ω) G (n + 1) = .error .ValueError := by
  have hr : (50 * dxHod : ℝ) = 2 * π * 5e9 := by
    unfold dxHod
    ring
  have hin : ∀ x, |x - ω| ≤ 2 * π * 5e9 → Diffracts t x := by
    intro x hx
    rw [abs_le] at hx
    exact hlo.between hhi (by linarith [hx.1]) (by linarith [hx.2])
  have h0 : |ω - ω| ≤ 2 * π * 5e9 := by
    rw [sub_self, abs_zero]
    positivity
  have hω := (hin ω h0).pos
  refine ⟨fun x hx => (hin x hx).dphi G, fun x hx => (hin x hx).contDiffAt G 102, ?_, ?_⟩
  · intro n M hn hn' hM
    obtain ⟨m, rfl⟩ : ∃ m, n = m + 1 := ⟨n - 1, by omega⟩
    have hc : ∀ y, |y - ω| ≤ 50 * dxHod → ContDiffAt ℝ 101 (deriv (t.tau G)) y := fun y hy =>
      ((hin y (hr ▸ hy)).contDiffAt G 102).derivWithin (by norm_num)
    obtain ⟨v, hv, b⟩ := derivative101_smooth (F := fun x => t.gdd (lOfW x) G) (f := fun x => 2 * deriv (t.tau G) x) (x := ω) (M := 2 * M)
      (fun y hy => (hin y (hr ▸ hy)).gdd G) (fun y hy => contDiffAt_const.mul (hc y hy))
      (fun y hy => by
        rw [iteratedDeriv_const_mul_field, ← iteratedDeriv_succ', abs_mul, abs_two]
        exact mul_le_mul_of_nonneg_left (hM y (hr ▸ hy)) two_pos.le) (n := m) (by omega)
    refine ⟨v, ?_, ?_⟩
    · rw [T.hod, if_neg (by omega), wOfL_lOfW hω]
      exact hv
    · rw [iteratedDeriv_const_mul_field, ← iteratedDeriv_succ', hr] at b
      rw [show 102 - (m + 1) = 101 - m by omega]
      exact b
  · rintro n (hn | hn)
    · rw [T.hod, if_pos (by omega)]
    · rw [T.hod, if_neg (by omega), derivative101, dif_neg (by omega)]

/-- C79: `calc_compressor_HOD` of order `n + 1` is twice the `n`-th derivative of the group delay of one pass, up to the error of the 101-point
stencil, whenever the grating diffracts both ends of the stencil (the frequency ± 5 GHz); orders below 3 and above 102 raise. -/
theorem C79_hod {t : T} {ω : ℝ} (hlo : Diffracts t (ω - 2 * π * 5e9)) (hhi : Diffracts t (ω + 2 * π * 5e9)) (G : ℝ) :
    ∃ τ : ℝ → ℝ, (∀ x, |x - ω| ≤ 2 * π * 5e9 → t.dphi x G = .val (τ x)) ∧ (∀ x, |x - ω| ≤ 2 * π * 5e9 → ContDiffAt ℝ 102 τ x) ∧
      (∀ n M, 2 ≤ n → n ≤ 101 → (∀ x, |x - ω| ≤ 2 * π * 5e9 → |iteratedDeriv 102 τ x| ≤ M) →
        ∃ v, t.hod (lOfW ω) G (n + 1) = .ok (.val v) ∧ |v - 2 * iteratedDeriv n τ ω| ≤ 2 * M * (2 * π * 5e9) ^ (102 - n) / (102 - n) !) ∧
      ∀ n, (n < 2 ∨ 101 < n) → t.hod (lOfW ω) G (n + 1) = .error .ValueError :=
  ⟨t.tau G, hod_tau hlo hhi G⟩

/-! ## The size of the error -/

/-- sine of the diffraction angle at a complex frequency -/
noncomputable def T.sineC (t : T) (z : ℂ) : ℂ := (2 * π * cMks / t.d : ℝ) / z - (sin t.g : ℝ)

theorem T.sineC_real (t : T) (x : ℝ) : t.sineC x = (t.sine (lOfW x) : ℝ) := by
  rw [sine_lOfW, T.sineC, show 2 * π * cMks / (x * t.d) = 2 * π * cMks / t.d / x by rw [div_div, mul_comm t.d]]
  push_cast
  rfl

/-- derivative of the group delay at a complex frequency -/
noncomputable def T.tauC (t : T) (G : ℝ) (z : ℂ) : ℂ :=
  (-(4 * π ^ 2 * cMks * G) / t.d ^ 2 : ℝ) / (z ^ 3 * ((1 - t.sineC z ^ 2) ^ ((1 / 2 : ℝ) : ℂ)) ^ 3)

/-- frequencies where it is holomorphic -/
def T.dom (t : T) : Set ℂ := {z | 0 < z.re} ∩ {z | 0 < (1 - t.sineC z ^ 2).re}

theorem ne_zero_of_re {z : ℂ} (h : 0 < z.re) : z ≠ 0 := by
  rintro rfl
  simp at h

theorem T.dom_open (t : T) : IsOpen t.dom := by
  have hc : ContinuousOn (fun z => (1 - t.sineC z ^ 2).re) {z : ℂ | 0 < z.re} := by
    intro z hz
    have hz0 : z ≠ 0 := ne_zero_of_re hz
    unfold T.sineC
    refine (Complex.continuous_re.continuousAt.comp ?_).continuousWithinAt
    fun_prop (disch := exact hz0)
  exact hc.isOpen_inter_preimage (isOpen_lt continuous_const Complex.continuous_re) isOpen_Ioi

theorem quot_diff {c : ℂ} {p : ℂ → ℂ} {z : ℂ} (hp : DifferentiableAt ℂ p z) (hne : z ^ 3 * p z ^ 3 ≠ 0) :
    DifferentiableAt ℂ (fun z => c / (z ^ 3 * p z ^ 3)) z := by
  fun_prop (disch := exact hne)

theorem T.tauC_diff (t : T) (G : ℝ) : DifferentiableOn ℂ (t.tauC G) t.dom := by
  rintro z ⟨hz, h1⟩
  have hz0 : z ≠ 0 := ne_zero_of_re hz
  have h1' : 0 < (1 - t.sineC z ^ 2).re := h1
  have hs : DifferentiableAt ℂ (fun z => 1 - t.sineC z ^ 2) z := by
    unfold T.sineC
    fun_prop (disch := exact hz0)
  have hp : DifferentiableAt ℂ (fun z => (1 - t.sineC z ^ 2) ^ ((1 / 2 : ℝ) : ℂ)) z := hs.cpow_const (Or.inl h1')
  have hne : z ^ 3 * ((1 - t.sineC z ^ 2) ^ ((1 / 2 : ℝ) : ℂ)) ^ 3 ≠ 0 := by
    refine mul_ne_zero (pow_ne_zero _ hz0) (pow_ne_zero _ ?_)
    rw [Complex.cpow_ne_zero_iff]
    exact Or.inl (ne_zero_of_re h1')
  exact (quot_diff hp hne).differentiableWithinAt

theorem T.diffracts_of_dom {t : T} (hd : t.d ≠ 0) {x : ℝ} (h : (x : ℂ) ∈ t.dom) : Diffracts t x := by
  obtain ⟨h1, h2⟩ := h
  have h2' : 0 < (1 - t.sineC x ^ 2).re := h2
  rw [T.sineC_real] at h2'
  have e : (1 - ((t.sine (lOfW x) : ℝ) : ℂ) ^ 2) = ((1 - t.sine (lOfW x) ^ 2 : ℝ) : ℂ) := by push_cast; rfl
  rw [e, Complex.ofReal_re] at h2'
  exact ⟨hd, h1, by nlinarith, by nlinarith⟩

theorem T.tauC_real {t : T} (hd : t.d ≠ 0) (G : ℝ) {x : ℝ} (h : (x : ℂ) ∈ t.dom) : (t.tauC G x).re = deriv (t.tau G) x := by
  have hD := T.diffracts_of_dom hd h
  rw [(hD.hasDerivAt G).deriv, T.tau', T.tauC, T.sineC_real]
  have e : (1 - ((t.sine (lOfW x) : ℝ) : ℂ) ^ 2) = ((1 - t.sine (lOfW x) ^ 2 : ℝ) : ℂ) := by push_cast; rfl
  rw [e, ← Complex.ofReal_cpow hD.one_sub.le, ← Real.sqrt_eq_rpow]
  have hS : 0 < √(1 - t.sine (lOfW x) ^ 2) := sqrt_pos.2 hD.one_sub
  have hx := hD.pos
  generalize √(1 - t.sine (lOfW x) ^ 2) = S at *
  rw [← Complex.ofReal_pow, ← Complex.ofReal_pow, ← Complex.ofReal_mul, ← Complex.ofReal_div, Complex.ofReal_re]
  rw [div_div]
  congr 1
  ring

/-- the hypotheses of the error bound, and what they give on a disc -/
theorem T.disc {t : T} {ω R q : ℝ} (hd : t.d ≠ 0) (hR0 : 0 < R) (hR : R < ω)
    (hq : |t.sine (lOfW ω)| + 2 * π * cMks * R / (|t.d| * ω * (ω - R)) ≤ q) (hq1 : q < 1) {z : ℂ} (hz : ‖z - ω‖ ≤ R) :
    z ∈ t.dom ∧ ω - R ≤ ‖z‖ ∧ ‖t.sineC z‖ ≤ q := by
  have hω : 0 < ω := hR0.trans hR
  have hre := abs_le.1 ((Complex.abs_re_le_norm _).trans hz)
  rw [Complex.sub_re, Complex.ofReal_re] at hre
  have hzr : ω - R ≤ z.re := by linarith [hre.1]
  have hzp : 0 < z.re := lt_of_lt_of_le (sub_pos.2 hR) hzr
  have hz0 : z ≠ 0 := ne_zero_of_re hzp
  have hn : ω - R ≤ ‖z‖ := hzr.trans (Complex.re_le_norm z)
  have hc : (0 : ℝ) < 2 * π * cMks := by
    have : (0 : ℝ) < cMks := by norm_num [cMks]
    positivity
  have hω0 : (ω : ℂ) ≠ 0 := by exact_mod_cast hω.ne'
  have hdiff : t.sineC z = (t.sine (lOfW ω) : ℝ) - (2 * π * cMks / t.d : ℝ) * (z - ω) / (ω * z) := by
    rw [← T.sineC_real, T.sineC, T.sineC]
    field_simp
    ring
  have hs : ‖t.sineC z‖ ≤ q := by
    rw [hdiff]
    refine (norm_sub_le _ _).trans (le_trans ?_ hq)
    rw [Complex.norm_real, Real.norm_eq_abs]
    refine add_le_add le_rfl ?_
    rw [norm_div, norm_mul, norm_mul, Complex.norm_real, Complex.norm_real, Real.norm_of_nonneg hω.le, Real.norm_eq_abs, abs_div, abs_of_pos hc]
    have hp : 0 < ω - R := sub_pos.2 hR
    have hda : 0 < |t.d| := abs_pos.2 hd
    calc 2 * π * cMks / |t.d| * ‖z - ω‖ / (ω * ‖z‖) ≤ 2 * π * cMks / |t.d| * R / (ω * (ω - R)) := by gcongr
      _ = _ := by field_simp
  refine ⟨⟨hzp, ?_⟩, hn, hs⟩
  show 0 < (1 - t.sineC z ^ 2).re
  rw [Complex.sub_re, Complex.one_re]
  have h1 : (t.sineC z ^ 2).re ≤ q ^ 2 := by
    refine (Complex.re_le_norm _).trans ?_
    rw [norm_pow]
    gcongr
  have hq0 : 0 ≤ q := (norm_nonneg _).trans hs
  nlinarith

/-- bound of the derivative of the group delay on the disc -/
theorem T.tauC_norm {t : T} {ω R q : ℝ} (hd : t.d ≠ 0) (hR0 : 0 < R) (hR : R < ω)
    (hq : |t.sine (lOfW ω)| + 2 * π * cMks * R / (|t.d| * ω * (ω - R)) ≤ q) (hq1 : q < 1) (G : ℝ) {z : ℂ} (hz : ‖z - ω‖ ≤ R) :
    ‖t.tauC G z‖ ≤ 4 * π ^ 2 * cMks * |G| / (t.d ^ 2 * (ω - R) ^ 3 * √(1 - q ^ 2) ^ 3) := by
  obtain ⟨-, h1, h2⟩ := T.disc hd hR0 hR hq hq1 hz
  have hc : (0 : ℝ) < cMks := by norm_num [cMks]
  have hq0 : 0 ≤ q := (norm_nonneg _).trans h2
  have hp : 0 < ω - R := sub_pos.2 hR
  have hqq : 0 < 1 - q ^ 2 := by nlinarith
  have hn : 1 - q ^ 2 ≤ ‖1 - t.sineC z ^ 2‖ := by
    have h3 := norm_sub_norm_le (1 : ℂ) (t.sineC z ^ 2)
    rw [norm_one, norm_pow] at h3
    have h4 : ‖t.sineC z‖ ^ 2 ≤ q ^ 2 := by gcongr
    linarith
  rw [T.tauC, norm_div, norm_mul, norm_pow, norm_pow, Complex.norm_cpow_real, ← Real.sqrt_eq_rpow, Complex.norm_real, Real.norm_eq_abs, abs_div, abs_neg,
    abs_mul, abs_of_pos (by positivity : 0 < 4 * π ^ 2 * cMks), abs_of_pos (by positivity : 0 < t.d ^ 2), div_div, ← mul_assoc]
  have hs : 0 < √(1 - q ^ 2) := sqrt_pos.2 hqq
  gcongr

/-- bound of the derivatives of the group delay -/
theorem T.tau_bound {t : T} {ω r R q : ℝ} (hd : t.d ≠ 0) (hr0 : 0 ≤ r) (hr : r < R) (hR : R < ω)
    (hq : |t.sine (lOfW ω)| + 2 * π * cMks * R / (|t.d| * ω * (ω - R)) ≤ q) (hq1 : q < 1) (G : ℝ) {x : ℝ} (hx : |x - ω| ≤ r) (n : ℕ) :
    |iteratedDeriv (n + 1) (t.tau G) x| ≤ n ! * (4 * π ^ 2 * cMks * |G| / (t.d ^ 2 * (ω - R) ^ 3 * √(1 - q ^ 2) ^ 3)) / (R - r) ^ n := by
  have hR0 : 0 < R := hr0.trans_lt hr
  have hball : ∀ z ∈ Metric.closedBall (x : ℂ) (R - r), ‖z - ω‖ ≤ R := by
    intro z hz
    rw [Metric.mem_closedBall, Complex.dist_eq] at hz
    have h2 : ‖(x : ℂ) - ω‖ ≤ r := by
      rw [← Complex.ofReal_sub, Complex.norm_real]
      exact hx
    calc ‖z - ω‖ = ‖(z - x) + (x - ω)‖ := by rw [sub_add_sub_cancel]
      _ ≤ ‖z - x‖ + ‖(x : ℂ) - ω‖ := norm_add_le _ _
      _ ≤ R := by linarith
  have hmem : ∀ z ∈ Metric.closedBall (x : ℂ) (R - r), z ∈ t.dom := fun z hz => (T.disc hd hR0 hR hq hq1 (hball z hz)).1
  have hself : (x : ℂ) ∈ t.dom := hmem _ (Metric.mem_closedBall_self (by linarith))
  have hV : IsOpen ((fun y : ℝ => (y : ℂ)) ⁻¹' t.dom) := t.dom_open.preimage Complex.continuous_ofReal
  have he : deriv (t.tau G) =ᶠ[𝓝 x] fun y : ℝ => (t.tauC G y).re :=
    Filter.eventually_of_mem (hV.mem_nhds hself) fun y hy => (T.tauC_real hd G hy).symm
  rw [iteratedDeriv_succ', he.iteratedDeriv_eq n, Xtal.iteratedDeriv_re t.dom_open (t.tauC_diff G) n hself]
  refine (Complex.abs_re_le_norm _).trans ?_
  have hcl : DiffContOnCl ℂ (t.tauC G) (Metric.ball (x : ℂ) (R - r)) := by
    refine DifferentiableOn.diffContOnCl ?_
    rw [closure_ball _ (by linarith)]
    exact (t.tauC_diff G).mono fun z hz => hmem z hz
  exact Complex.norm_iteratedDeriv_le_of_forall_mem_sphere_norm_le n (by linarith) hcl fun z hz =>
    T.tauC_norm hd hR0 hR hq hq1 G (hball z (Metric.sphere_subset_closedBall hz))

/-- C79, size of the error: when every complex frequency within `R` of `ω` is diffracted at a sine of modulus at most `q < 1`, the error of
`calc_compressor_HOD` of order `n + 1` is at most the bound `B` of the second-order dispersion there times `2·101!/(102-n)!·r^(102-n)/(R-r)^101`, where
`r/2π` is 5 GHz. -/
theorem C79_hod_error {t : T} {ω R q : ℝ} (hd : t.d ≠ 0) (hr : 2 * π * 5e9 < R) (hR : R < ω)
    (hq : |t.sine (lOfW ω)| + 2 * π * cMks * R / (|t.d| * ω * (ω - R)) ≤ q) (hq1 : q < 1) (G : ℝ) :
    ∃ τ : ℝ → ℝ, (∀ x, |x - ω| ≤ 2 * π * 5e9 → t.dphi x G = .val (τ x)) ∧
      ∀ n, 2 ≤ n → n ≤ 101 → ∃ v, t.hod (lOfW ω) G (n + 1) = .ok (.val v) ∧
        |v - 2 * iteratedDeriv n τ ω| ≤ 2 * (101 ! * (4 * π ^ 2 * cMks * |G| / (t.d ^ 2 * (ω - R) ^ 3 * √(1 - q ^ 2) ^ 3)) / (R - 2 * π * 5e9) ^ 101) *
          (2 * π * 5e9) ^ (102 - n) / (102 - n) ! := by
  have hr0 : (0 : ℝ) ≤ 2 * π * 5e9 := by positivity
  have hin : ∀ x : ℝ, |x - ω| ≤ 2 * π * 5e9 → Diffracts t x := by
    intro x hx
    refine T.diffracts_of_dom hd (T.disc hd (hr0.trans_lt hr) hR hq hq1 (z := x) ?_).1
    rw [← Complex.ofReal_sub, Complex.norm_real]
    exact hx.trans hr.le
  obtain ⟨h1, -, h3, -⟩ := hod_tau (hin (ω - 2 * π * 5e9) (by rw [sub_sub_cancel_left, abs_neg, abs_of_nonneg hr0]))
    (hin (ω + 2 * π * 5e9) (by rw [add_sub_cancel_left, abs_of_nonneg hr0])) G
  exact ⟨t.tau G, h1, fun n hn hn' => h3 n _ hn hn' fun x hx => T.tau_bound hd hr0 hr hR hq hq1 G hx 101⟩

theorem tod_size {p S F X Y Z c g : ℝ} (hp : 0 < p) (hS : 0 < S) (hF : 0 < F) (hX : 0 < X) (hY : 0 < Y) :
    2 * (101 * F * (4 * p ^ 2 * c * g / ((1 / 10 ^ 6) ^ 2 * (p * Y) ^ 3 * S ^ 3)) / (p * X) ^ 101) * (p * Z) ^ 100 / F =
      808 * 10 ^ 12 * c / Y ^ 3 * (Z ^ 100 / X ^ 101) * g / (p ^ 2 * S ^ 3) := by
  simp only [mul_pow]
  field_simp
  ring

/-- C79: third-order dispersion of 1000 lines/mm at normal incidence and 0.5 µm: the error of the stencil is below `1e-200` of the separation. -/
theorem C79_tod_nonvacuous (G : ℝ) : ∃ t, T.init 1000 0 = .ok t ∧ ∃ τ : ℝ → ℝ, ∃ ω v, ω = 2 * π * 299792458 / 5e-7 ∧
    (∀ x, |x - ω| ≤ 2 * π * 5e9 → t.dphi x G = .val (τ x)) ∧ t.hod (lOfW ω) G 3 = .ok (.val v) ∧ |v - 2 * iteratedDeriv 2 τ ω| ≤ 1e-200 * |G| := by
  have hπ := Real.pi_gt_three
  have hπ4 := Real.pi_lt_four
  have hω : (2 * π * 299792458 / 5e-7 : ℝ) = π * 1199169832e6 := by norm_num; ring
  have hs : (⟨1 / 10 ^ 6, 0⟩ : T).sine (lOfW (2 * π * 299792458 / 5e-7)) = 1 / 2 := by
    rw [sine_lOfW, hω]
    simp only [sin_zero, cMks]
    field_simp
    norm_num
  obtain ⟨τ, h1, h2⟩ := C79_hod_error (t := ⟨1 / 10 ^ 6, 0⟩) (ω := 2 * π * 299792458 / 5e-7) (R := π * 299792458e6) (q := 2 / 3) (by norm_num)
    (by nlinarith) (by rw [hω]; nlinarith)
    (by
      rw [hs, hω]
      simp only [cMks]
      rw [abs_of_pos (by norm_num), abs_of_pos (by norm_num)]
      field_simp
      norm_num) (by norm_num) G
  obtain ⟨v, h3, h4⟩ := h2 2 le_rfl (by norm_num)
  refine ⟨_, ?_, τ, _, v, rfl, h1, h3, h4.trans ?_⟩
  · rw [T.init, if_neg (by norm_num)]
    norm_num
  · have hF : ((101 ! : ℕ) : ℝ) = 101 * ((100 ! : ℕ) : ℝ) := by exact_mod_cast Nat.factorial_succ 100
    have hF0 : (0 : ℝ) < ((100 ! : ℕ) : ℝ) := by exact_mod_cast Nat.factorial_pos 100
    have hS : (0.7 : ℝ) ≤ √(1 - (2 / 3) ^ 2) := Real.le_sqrt_of_sq_le (by norm_num)
    have e1 : (2 * π * 299792458 / 5e-7 - π * 299792458e6 : ℝ) = π * 899377374e6 := by rw [hω]; ring
    have e2 : (π * 299792458e6 - 2 * π * 5e9 : ℝ) = π * 299782458e6 := by ring
    have e3 : (2 * π * 5e9 : ℝ) = π * 1e10 := by ring
    have h100 : 102 - 2 = 100 := rfl
    rw [hF, e1, e2, e3, h100]
    generalize √(1 - (2 / 3) ^ 2 : ℝ) = S at hS
    generalize ((100 ! : ℕ) : ℝ) = F at hF0
    have hS0 : 0 < S := lt_of_lt_of_le (by norm_num) hS
    dsimp only
    rw [tod_size (by positivity) hS0 hF0 (by norm_num) (by norm_num)]
    have h1 : 1 ≤ π ^ 2 * S ^ 3 := by
      have a : (3 : ℝ) ^ 2 ≤ π ^ 2 := by gcongr
      have b : (0.7 : ℝ) ^ 3 ≤ S ^ 3 := by gcongr
      calc (1 : ℝ) ≤ 3 ^ 2 * 0.7 ^ 3 := by norm_num
        _ ≤ _ := mul_le_mul a b (by norm_num) (by positivity)
    have hK : (808 * 10 ^ 12 * cMks / 899377374e6 ^ 3 * (1e10 ^ 100 / 299782458e6 ^ 101) : ℝ) ≤ 1e-200 := by
      simp only [cMks]
      norm_num
    have hK0 : (0 : ℝ) ≤ 808 * 10 ^ 12 * cMks / 899377374e6 ^ 3 * (1e10 ^ 100 / 299782458e6 ^ 101) := by
      simp only [cMks]
      positivity
    generalize (808 * 10 ^ 12 * cMks / 899377374e6 ^ 3 * (1e10 ^ 100 / 299782458e6 ^ 101) : ℝ) = K at hK hK0
    calc K * |G| / (π ^ 2 * S ^ 3) ≤ K * |G| := div_le_self (by positivity) h1
      _ ≤ _ := mul_le_mul_of_nonneg_right hK (abs_nonneg _)

end PyNLO.Treacy
