import Verif.Props.Fiber
import Verif.Props.SsfmProp
import Mathlib.LinearAlgebra.Lagrange

/-! # C127, C128: fibres given by a table of D or of the effective index -/

namespace PyNLO

open Fiber Polynomial

/-! ## what the external routines do -/

/-- A polynomial fit that recovers exact data: with more distinct abscissae than the order, ordinates on a polynomial
of at most that degree give its coefficients, highest order first. -/
def Spec.ExactFit (polyfit : PolyFit) : Prop :=
  ∀ (n order : ℕ) (x : Fin n → ℝ) (P : ℝ[X]), Function.Injective x → order < n → P.natDegree ≤ order →
    polyfit ⟨n, x⟩ ⟨n, fun i => P.eval (x i)⟩ order = .ok ⟨order + 1, fun i => P.coeff (order - i)⟩

/-- A cubic interpolating spline: for strictly increasing abscissae it goes through the points and reproduces cubic
polynomials. -/
def Spec.CubicSpline (spline : Spline) : Prop :=
  ∀ (n : ℕ) (x y : Fin n → ℝ), 4 ≤ n → StrictMono x → ∃ g, spline ⟨n, x⟩ ⟨n, y⟩ = .ok g ∧ (∀ i, g (x i) = y i) ∧
    ∀ P : ℝ[X], P.natDegree ≤ 3 → (∀ i, y i = P.eval (x i)) → ∀ w, g w = P.eval w

theorem poly_unique {n d : ℕ} {x : Fin n → ℝ} (hx : Function.Injective x) (hd : d < n) {P Q : ℝ[X]}
    (hP : P.natDegree ≤ d) (hQ : Q.natDegree ≤ d) (h : ∀ i, P.eval (x i) = Q.eval (x i)) : P = Q := by
  have hl : ∀ R : ℝ[X], R.natDegree ≤ d → R.degree < ((Finset.univ : Finset (Fin n)).card : ℕ) := by
    intro R hR
    rw [Finset.card_univ, Fintype.card_fin]
    exact lt_of_le_of_lt degree_le_natDegree (by exact_mod_cast lt_of_le_of_lt hR hd)
  exact eq_of_degrees_lt_of_eval_index_eq (s := Finset.univ) (v := x) hx.injOn (hl P hP) (hl Q hQ) fun i _ => h i

/-- such fits exist -/
theorem exactFit_exists : ∃ polyfit, Spec.ExactFit polyfit := by
  classical
  refine ⟨fun x y order => if h : ∃ P : ℝ[X], P.natDegree ≤ order ∧ ∃ hl : x.len = y.len, ∀ i, y.val (i.cast hl) = P.eval (x.val i) then .ok ⟨order + 1, fun i => h.choose.coeff (order - i)⟩ else .error .ValueError, ?_⟩
  intro n order x P hx ho hP
  have h : ∃ P' : ℝ[X], P'.natDegree ≤ order ∧ ∃ hl : (⟨n, x⟩ : Vec ℝ).len = (⟨n, fun i => P.eval (x i)⟩ : Vec ℝ).len,
      ∀ i, (⟨n, fun i => P.eval (x i)⟩ : Vec ℝ).val (i.cast hl) = P'.eval ((⟨n, x⟩ : Vec ℝ).val i) :=
    ⟨P, hP, rfl, fun _ => rfl⟩
  dsimp only
  rw [dif_pos h]
  obtain ⟨h1, _, h2⟩ := h.choose_spec
  have : h.choose = P := poly_unique hx ho h1 hP fun i => (h2 i).symm
  rw [this]

/-- such splines exist -/
theorem cubicSpline_exists : ∃ spline, Spec.CubicSpline spline := by
  classical
  refine ⟨fun x y => .ok (if h : ∃ P : ℝ[X], P.natDegree ≤ 3 ∧ ∃ hl : x.len = y.len, ∀ i, y.val (i.cast hl) = P.eval (x.val i) then fun w => h.choose.eval w else fun w => if h : ∃ hl : x.len = y.len, ∃ i, x.val i = w then y.val (h.choose_spec.choose.cast h.choose) else 0), ?_⟩
  intro n x y hn hx
  refine ⟨_, rfl, ?_, ?_⟩
  · intro i
    split_ifs with h
    · obtain ⟨_, _, h2⟩ := h.choose_spec
      exact (h2 i).symm
    · have h2 : ∃ hl : (⟨n, x⟩ : Vec ℝ).len = (⟨n, y⟩ : Vec ℝ).len, ∃ j, (⟨n, x⟩ : Vec ℝ).val j = x i := ⟨rfl, i, rfl⟩
      dsimp only
      rw [dif_pos h2]
      exact congrArg y (hx.injective h2.choose_spec.choose_spec)
  · intro P hP hy w
    have h : ∃ P : ℝ[X], P.natDegree ≤ 3 ∧ ∃ hl : (⟨n, x⟩ : Vec ℝ).len = (⟨n, y⟩ : Vec ℝ).len,
        ∀ i, (⟨n, y⟩ : Vec ℝ).val (i.cast hl) = P.eval ((⟨n, x⟩ : Vec ℝ).val i) := ⟨P, hP, rfl, hy⟩
    rw [dif_pos h]
    obtain ⟨h1, _, h2⟩ := h.choose_spec
    have : h.choose = P := poly_unique hx.injective (show 3 < n by omega) h1 hP fun i => (h2 i).symm.trans (hy i)
    rw [this]

/-! ## C127 -/

/-- C127: if the D of the file comes from a β₂ that is a polynomial `P` in the detuning from the pulse centre, of at
most the fitted order, then `get_betas` is exactly the polynomial with second derivative `P` that vanishes with its
slope at the pulse centre; the length, gamma and gain are those given. -/
theorem C127_file (polyfit : PolyFit) (hfit : Spec.ExactFit polyfit) (spline : Spline) (s : Specs) {f : Fib}
    (hd : f.dispChanges = false) (hg : f.gammaChanges = false) (name : String) (length gamma gain : ℝ) {order m : ℕ}
    (hm : order < m) (lam : Fin m → ℝ) (hlam : Function.Injective lam) (hpos : ∀ i, lam i ≠ 0) {p : Pulse}
    (hr : p.ready = true) (hn : 0 < p.n) (hcf : p.cf ≠ 0) (P : ℝ[X]) (hP : P.natDegree ≤ order) (z : ℝ) :
    ∃ Q : ℝ[X], derivative (derivative Q) = P ∧ Q.eval 0 = 0 ∧ (derivative Q).eval 0 = 0 ∧
      ∃ f', getBetas polyfit spline (fileSpecs gain s) p z (fileFib name length gamma gain order ⟨m, lam⟩ ⟨m, fun i => -2 * Real.pi * cMks / lam i ^ 2 * P.eval (2 * Real.pi * cNmps / lam i - 2 * Real.pi * p.cf)⟩ f) = (.ok (.arr ⟨p.n, fun k => Q.eval (2 * Real.pi * ((k : ℕ) - (p.n : ℝ) / 2) / p.tw)⟩), f') ∧
        f'.length = some length ∧ getGamma f' z = .ok (some gamma) ∧
        getGain (fileSpecs gain s) f' p = .ok ⟨p.n, fun _ => gain⟩ := by
  obtain ⟨Q, hQ, hQ2, hQ0, hQ1⟩ := C34_propagation_constant P hP
  refine ⟨Q, hQ2, hQ0, hQ1, ?_⟩
  set D : Fin m → ℝ := fun i => -2 * Real.pi * cMks / lam i ^ 2 * P.eval (2 * Real.pi * cNmps / lam i - 2 * Real.pi * p.cf) with hD
  have hpi := Real.pi_ne_zero
  have hc : cNmps ≠ 0 := by unfold cNmps cMks; norm_num
  have hcm : cMks ≠ 0 := by unfold cMks; norm_num
  have hlam0 : cNmps / p.cf ≠ 0 := div_ne_zero hc hcf
  -- the conversion
  have htab : ∃ r, (dTabulationToBetas polyfit (cNmps / p.cf) order ⟨m, fun i => (lam i, D i)⟩).1 = .ok r ∧
      r.betas = ⟨order + 1, fun i => (Nat.factorial i) * P.coeff i⟩ := by
    have hom : ((⟨m, fun i => (lam i, D i)⟩ : Vec (ℝ × ℝ)).map convRow).map (fun r => omegaOf (cNmps / p.cf) r.1) =
        ⟨m, fun i => 2 * Real.pi * cNmps / lam i - 2 * Real.pi * p.cf⟩ := by
      simp only [Vec.map_mk, convRow, omegaOf]
      congr 1
      funext i
      have := hpos i
      have e : 2 * Real.pi * cMks / (cNmps / p.cf * 10 ^ (-9 : ℤ)) * 10 ^ (-12 : ℤ) = 2 * Real.pi * p.cf := by
        unfold cNmps
        norm_num
        field_simp
      rw [sub_mul, e]
      congr 1
      unfold cNmps
      norm_num
      field_simp
    have hb2 : ((⟨m, fun i => (lam i, D i)⟩ : Vec (ℝ × ℝ)).map convRow).map (fun r => betaTwoOf r.1 r.2) =
        ⟨m, fun i => P.eval (2 * Real.pi * cNmps / lam i - 2 * Real.pi * p.cf)⟩ := by
      simp only [Vec.map_mk, convRow, betaTwoOf]
      congr 1
      funext i
      have := hpos i
      rw [hD]
      dsimp only
      generalize P.eval _ = e
      norm_num
      field_simp
      ring
    have hinj : Function.Injective fun i => 2 * Real.pi * cNmps / lam i - 2 * Real.pi * p.cf := by
      intro i j hij
      have h1 := hpos i
      have h2 := hpos j
      have h3 : 2 * Real.pi * cNmps / lam i = 2 * Real.pi * cNmps / lam j := by
        have : 2 * Real.pi * cNmps / lam i - 2 * Real.pi * p.cf = 2 * Real.pi * cNmps / lam j - 2 * Real.pi * p.cf := hij
        linarith
      apply hlam
      rw [div_eq_div_iff h1 h2] at h3
      exact (mul_left_cancel₀ (by positivity) h3).symm
    have hco := hfit m order _ P hinj hm hP
    unfold dTabulationToBetas
    dsimp only
    rw [if_neg hlam0, hom, hb2, hco]
    refine ⟨_, rfl, ?_⟩
    dsimp only
    congr 1
    funext i
    have : order - (i.rev : ℕ) = i := by rw [Fin.val_rev]; omega
    rw [this, mul_comm]
  obtain ⟨r, hr1, hr2⟩ := htab
  have hbd : ∀ g : Fib, g.x = some ⟨m, lam⟩ → g.y = some ⟨m, D⟩ → g.polyOrder = some order →
      betasD polyfit p g = (.ok ⟨p.n, fun k => Q.eval (2 * Real.pi * ((k : ℕ) - (p.n : ℝ) / 2) / p.tw)⟩, { g with betas := some r.betas }) := by
    intro g hx hy ho
    unfold betasD
    have hst : stack ⟨m, lam⟩ ⟨m, D⟩ = .ok ⟨m, fun i => (lam i, D i)⟩ := by
      unfold stack; rw [dif_pos rfl]; rfl
    simp only [hx, hy, ho, attr, V_of_ready hr hn, Pulse.center_wavelength_nm, if_neg hcf, except_bind_ok, hst, hr1]
    rw [hr2, Vec.map_mk]
    simp only [hQ]
  refine ⟨{ fileFib name length gamma gain order ⟨m, lam⟩ ⟨m, D⟩ f with betas := some r.betas }, ?_, rfl, ?_, ?_⟩
  · unfold getBetas
    simp only [fileSpecs, reload, fileFib, hd, Bool.false_eq_true, if_false, if_true]
    rw [hbd _ rfl rfl rfl]
  · simp [getGamma, fileFib, hg]
  · unfold getGain fileSpecs
    by_cases h0 : gain = 0
    · simp [key, h0, Vec.zeros]
    · simp [key, h0, attr, fileFib]

/-- C127 fails after `set_dispersion_function`: the file is read, but `get_betas` replaces its table by the one the
old function returns, as if that had been in the file. -/
theorem C127_stale_function_refuted (polyfit : PolyFit) (spline : Spline) (s : Specs) (f : Fib) (hd : f.dispChanges = false)
    (d : ℝ → DispOut) (name : String) (length gamma gain z : ℝ) (order : ℕ) (x y x' y' : Vec ℝ) (hdz : d z = .table x' y') (p : Pulse) :
    (getBetas polyfit spline (fileSpecs gain s) p z (fileFib name length gamma gain order x y (dispFunFib d f))).1 =
      (getBetas polyfit spline (fileSpecs gain s) p z (fileFib name length gamma gain order x' y' f)).1 := by
  have : ∀ g g' : Fib, g.x = g'.x → g.y = g'.y → g.polyOrder = g'.polyOrder →
      (betasD polyfit p g).1 = (betasD polyfit p g').1 := by
    intro g g' h1 h2 h3
    unfold betasD
    rw [h1, h2, h3]
    split <;> rfl
  have wrap : ∀ a b : Except PyErr (Vec ℝ) × Fib, a.1 = b.1 →
      (match a with
        | (.ok v, f) => ((.ok (.arr v) : Except PyErr BetaRes), f)
        | (.error e, f) => (.error e, f)).1 =
      (match b with
        | (.ok v, f) => ((.ok (.arr v) : Except PyErr BetaRes), f)
        | (.error e, f) => (.error e, f)).1 := by
    rintro ⟨a, g⟩ ⟨b, g'⟩ h
    dsimp only at h
    subst h
    cases a <;> rfl
  unfold getBetas
  simp only [fileSpecs, reload, fileFib, dispFunFib, hd, hdz, Bool.false_eq_true, if_false, if_true, true_or]
  exact wrap _ _ (this _ _ rfl rfl rfl)

/-- a table with three wavelengths and the polynomial `1 + X` (order 2) meet the hypotheses of `C127_file` -/
theorem C127_nonvacuous : (∃ polyfit, Spec.ExactFit polyfit) ∧ (1 + X : ℝ[X]).natDegree ≤ 2 ∧
    Function.Injective (fun i : Fin 3 => 1500 + 50 * (i : ℝ)) ∧ (∀ i : Fin 3, 1500 + 50 * ((i : ℕ) : ℝ) ≠ 0) ∧
    (gridPulse 8).cf ≠ 0 := by
  refine ⟨exactFit_exists, by compute_degree!, ?_, fun i => by positivity, ?_⟩
  · intro i j h
    have : ((i : ℕ) : ℝ) = (j : ℕ) := by
      have h' : 1500 + 50 * ((i : ℕ) : ℝ) = 1500 + 50 * ((j : ℕ) : ℝ) := h
      linarith
    exact Fin.ext (by exact_mod_cast this)
  · show (1 : ℝ) ≠ 0; exact one_ne_zero

/-! ## C128 -/

/-- the pulse grid, rad/ps -/
noncomputable def gridW (p : Pulse) (k : ℕ) : ℝ :=
  2 * Real.pi * ((k : ℝ) - (p.n : ℝ) / 2) / p.tw + 2 * Real.pi * p.cf

/-- `get_betas`, n format, of a table with increasing wavelengths: the spline is built, and the result is the spline on
the pulse grid in the frame of the pulse. -/
theorem getBetas_n (polyfit : PolyFit) {spline : Spline} (hspl : Spec.CubicSpline spline) {s : Specs} {f : Fib} {m : ℕ}
    (lam n : Fin m → ℝ) (hm : 4 ≤ m) (hlam : StrictMono lam) (hpos : ∀ i, 0 < lam i) {p : Pulse} (hr : p.ready = true)
    (hn : 2 ≤ p.n) {c : Fin p.n} (hc : argmin (fun i : Fin p.n => |2 * Real.pi * ((i : ℕ) - (p.n : ℝ) / 2) / p.tw|) = .ok c)
    (hs : s.format = some "n") (hd : f.dispChanges = false) (hx : f.x = some ⟨m, lam⟩) (hy : f.y = some ⟨m, n⟩) (z : ℝ) :
    ∃ g : ℝ → ℝ, getBetas polyfit spline s p z f = (.ok (.arr ⟨p.n, fun k => g (gridW p k) - gradAt hn (fun k => g (gridW p k)) c / (2 * Real.pi / p.tw) * (2 * Real.pi * ((k : ℕ) - (p.n : ℝ) / 2) / p.tw) - g (gridW p c)⟩), f) ∧
      (∀ i, g (2 * Real.pi * 300000 / lam i) = 2 * Real.pi * n i / (lam i * 10 ^ (-9 : ℤ))) ∧
      ∀ P : ℝ[X], P.natDegree ≤ 3 →
        (∀ i, 2 * Real.pi * n i / (lam i * 10 ^ (-9 : ℤ)) = P.eval (2 * Real.pi * 300000 / lam i)) → ∀ w, g w = P.eval w := by
  have hw : ∀ x : ℝ, 2 * Real.pi * 10 ^ (-12 : ℤ) * (3 * 10 ^ 8) / (x * 10 ^ (-9 : ℤ)) = 2 * Real.pi * 300000 / x := by
    intro x
    rcases eq_or_ne x 0 with rfl | hx0
    · simp
    · norm_num; field_simp; norm_num
  have hmono : StrictMono fun i : Fin m => 2 * Real.pi * 300000 / lam i.rev := by
    intro i j hij
    have h1 : lam j.rev < lam i.rev := hlam (Fin.rev_lt_rev.mpr hij)
    have := Real.pi_pos
    exact div_lt_div_of_pos_left (by positivity) (hpos _) h1
  obtain ⟨g, hg1, hg2, hg3⟩ := hspl m (fun i => 2 * Real.pi * 300000 / lam i.rev)
    (fun i => n i.rev * 2 * Real.pi / (lam i.rev * 10 ^ (-9 : ℤ))) hm hmono
  have hcomm : ∀ i, n i * 2 * Real.pi / (lam i * 10 ^ (-9 : ℤ)) = 2 * Real.pi * n i / (lam i * 10 ^ (-9 : ℤ)) := by
    intro i; ring
  refine ⟨g, ?_, ?_, ?_⟩
  · have hraw : rawN spline f p = .ok ⟨p.n, fun k => g (gridW p k)⟩ := by
      unfold rawN
      rw [hx, hy, W_of_ready hr (by omega)]
      simp only [attr, except_bind_ok, Vec.map_mk, Vec.zip_mk, vrev, hw]
      rw [hg1]
      rfl
    unfold getBetas
    rw [hs]
    simp only [reload, hd, Bool.false_eq_true, if_false, show ¬ (("n" : String) = "D") by decide,
      show ¬ (("n" : String) = "GVD") by decide, if_true]
    rw [hraw, except_bind_ok, reference_eq hr hn hc]
    rfl
  · intro i
    have := hg2 i.rev
    simp only [Fin.rev_rev] at this
    rw [this, hcomm]
  · intro P hP h w
    refine hg3 P hP (fun i => ?_) w
    rw [hcomm, h]

/-- C128, what holds: for strictly increasing wavelengths `get_betas` succeeds and, up to an affine function of V, it
is a curve through the propagation constants `2π n/λ` of the table — placed at the frequencies `2π·3e8/λ`, not
`2πc/λ`. -/
theorem C128_interpolates_partial (polyfit : PolyFit) {spline : Spline} (hspl : Spec.CubicSpline spline) {s : Specs} {f : Fib} {m : ℕ}
    (lam n : Fin m → ℝ) (hm : 4 ≤ m) (hlam : StrictMono lam) (hpos : ∀ i, 0 < lam i) {p : Pulse} (hr : p.ready = true)
    (hn : 2 ≤ p.n) (hs : s.format = some "n") (hd : f.dispChanges = false) (hx : f.x = some ⟨m, lam⟩)
    (hy : f.y = some ⟨m, n⟩) (z : ℝ) : ∃ (g : ℝ → ℝ) (α β : ℝ) (v : Fin p.n → ℝ),
      getBetas polyfit spline s p z f = (.ok (.arr ⟨p.n, v⟩), f) ∧
      (∀ k : Fin p.n, v k = g (gridW p k) - α * (2 * Real.pi * ((k : ℕ) - (p.n : ℝ) / 2) / p.tw) - β) ∧
      ∀ i, g (2 * Real.pi * 300000 / lam i) = 2 * Real.pi * n i / (lam i * 10 ^ (-9 : ℤ)) := by
  obtain ⟨c, hc⟩ := argmin_ok (fun i : Fin p.n => |2 * Real.pi * ((i : ℕ) - (p.n : ℝ) / 2) / p.tw|) (by omega)
  obtain ⟨g, h1, h2, -⟩ := getBetas_n polyfit hspl lam n hm hlam hpos hr hn hc hs hd hx hy z
  exact ⟨g, _, _, _, h1, fun k => rfl, h2⟩

/-- C128: a constant index has no dispersion: `get_betas` is zero. -/
theorem C128_constant_index (polyfit : PolyFit) {spline : Spline} (hspl : Spec.CubicSpline spline) {s : Specs} {f : Fib} {m : ℕ}
    (lam : Fin m → ℝ) (n₀ : ℝ) (hm : 4 ≤ m) (hlam : StrictMono lam) (hpos : ∀ i, 0 < lam i) {p : Pulse} (hr : p.ready = true)
    (hn : 2 ≤ p.n) (hev : p.n % 2 = 0) (htw : p.tw ≠ 0) (hs : s.format = some "n") (hd : f.dispChanges = false) (hx : f.x = some ⟨m, lam⟩)
    (hy : f.y = some ⟨m, fun _ => n₀⟩) (z : ℝ) :
    getBetas polyfit spline s p z f = (.ok (.arr ⟨p.n, fun _ => 0⟩), f) := by
  obtain ⟨h, hh⟩ : ∃ h, p.n = 2 * h := ⟨p.n / 2, by omega⟩
  have hc := argmin_even hh (by omega) htw
  obtain ⟨g, h1, -, h3⟩ := getBetas_n polyfit hspl lam (fun _ => n₀) hm hlam hpos hr hn hc hs hd hx hy z
  have hg : ∀ w, g w = 10 ^ 9 / 300000 * n₀ * w := by
    intro w
    rw [h3 (C (10 ^ 9 / 300000 * n₀) * X) (by compute_degree!) (fun i => ?_)]
    · simp
    · have := (hpos i).ne'
      simp only [eval_mul, eval_C, eval_X]
      norm_num
      field_simp
      ring
  rw [h1]
  simp only [hg]
  have hpi := Real.pi_ne_zero
  have hgr : gradAt hn (fun k : Fin p.n => 10 ^ 9 / 300000 * n₀ * gridW p k) ⟨h, by omega⟩ =
      10 ^ 9 / 300000 * n₀ * (2 * Real.pi / p.tw) := by
    have := gradAt_grid hn p.tw ((p.n : ℝ) / 2) (2 * Real.pi * p.cf) ⟨h, by omega⟩
    rw [← this]
    unfold gradAt gridW
    split_ifs <;> ring
  rw [hgr]
  have h0 : (p.n : ℝ) / 2 = h := by rw [hh]; push_cast; ring
  congr 4
  funext k
  unfold gridW
  rw [h0]
  field_simp
  ring

/-- propagation constant (1/m) at angular frequency `w` (rad/ps) of the index `n(λ)`, `λ` in nm -/
noncomputable def Spec.betaOfIndex (n : ℝ → ℝ) (w : ℝ) : ℝ :=
  2 * Real.pi * n (2 * Real.pi * cNmps / w) / (2 * Real.pi * cNmps / w * 10 ^ (-9 : ℤ))

/-- the same in the frame of the pulse: on the grid `W`, subtract value and discrete slope at bin `h` -/
noncomputable def Spec.inFrame (W : ℕ → ℝ) (β : ℝ → ℝ) (h k : ℕ) : ℝ :=
  β (W k) - (β (W (h + 1)) - β (W (h - 1))) / 2 * ((k : ℝ) - h) - β (W h)

/-- C128 for indices following Cauchy's formula `n = a + b/λ²`: `get_betas` is exactly `(c/3e8)³` times the dispersion of
that index in the frame of the pulse, whatever the table. -/
theorem C128_cauchy_partial (polyfit : PolyFit) {spline : Spline} (hspl : Spec.CubicSpline spline) {s : Specs} {f : Fib} {m : ℕ}
    (lam : Fin m → ℝ) (a b : ℝ) (hm : 4 ≤ m) (hlam : StrictMono lam) (hpos : ∀ i, 0 < lam i) {p : Pulse} (hr : p.ready = true)
    {h : ℕ} (hh : p.n = 2 * h) (h2 : 2 ≤ h) (htw : p.tw ≠ 0) (hs : s.format = some "n") (hd : f.dispChanges = false)
    (hx : f.x = some ⟨m, lam⟩) (hy : f.y = some ⟨m, fun i => a + b / lam i ^ 2⟩) (z : ℝ) :
    getBetas polyfit spline s p z f = (.ok (.arr ⟨p.n, fun k => (cMks / 300000000) ^ 3 * Spec.inFrame (gridW p) (Spec.betaOfIndex fun l => a + b / l ^ 2) h k⟩), f) := by
  have hn : 2 ≤ p.n := by omega
  have hc := argmin_even hh (by omega) htw
  obtain ⟨g, h1, -, h3⟩ := getBetas_n polyfit hspl lam (fun i => a + b / lam i ^ 2) hm hlam hpos hr hn hc hs hd hx hy z
  have hpi := Real.pi_ne_zero
  have hcm : cMks ≠ 0 := by unfold cMks; norm_num
  have hg : ∀ w, g w = 10 ^ 9 / 300000 * w * (a + b * w ^ 2 / (2 * Real.pi * 300000) ^ 2) := by
    intro w
    rw [h3 (C (10 ^ 9 / 300000 * a) * X + C (10 ^ 9 / 300000 * b / (2 * Real.pi * 300000) ^ 2) * X ^ 3) (by compute_degree!) (fun i => ?_)]
    · simp only [eval_add, eval_mul, eval_C, eval_X, eval_pow]
      ring
    · have := (hpos i).ne'
      simp only [eval_add, eval_mul, eval_C, eval_X, eval_pow]
      norm_num
      field_simp
      ring
  have hβ : ∀ w, Spec.betaOfIndex (fun l => a + b / l ^ 2) w = 10 ^ 12 / cMks * w * (a + b * w ^ 2 / (2 * Real.pi * cNmps) ^ 2) := by
    intro w
    unfold Spec.betaOfIndex cNmps
    rcases eq_or_ne w 0 with rfl | hw
    · simp
    · norm_num
      field_simp
  rw [h1]
  have h0 : (p.n : ℝ) / 2 = h := by rw [hh]; push_cast; ring
  have hgr : gradAt hn (fun k : Fin p.n => g (gridW p k)) ⟨h, by omega⟩ = (g (gridW p (h + 1)) - g (gridW p (h - 1))) / 2 := by
    unfold gradAt
    rw [if_neg (by simp only; omega), dif_neg (by simp only; omega)]
  have hm1 : (((h - 1 : ℕ) : ℕ) : ℝ) = h - 1 := by rw [Nat.cast_sub (by omega)]; simp
  congr 4
  funext k
  rw [hgr]
  unfold Spec.inFrame
  simp only [hg, hβ]
  unfold gridW cNmps
  rw [h0]
  push_cast
  rw [hm1]
  field_simp
  ring

/-- C128 refuted: with `b ≠ 0` the result is not the dispersion of the index (the factor is 0.9979 because the table is
placed at `3e8/λ` while the pulse grid uses the speed of light): the bin next to the centre is wrong. -/
theorem C128_speed_of_light_refuted (polyfit : PolyFit) {spline : Spline} (hspl : Spec.CubicSpline spline) {s : Specs} {f : Fib} {m : ℕ}
    (lam : Fin m → ℝ) (a b : ℝ) (hb : b ≠ 0) (hm : 4 ≤ m) (hlam : StrictMono lam) (hpos : ∀ i, 0 < lam i) {p : Pulse} (hr : p.ready = true)
    {h : ℕ} (hh : p.n = 2 * h) (h2 : 2 ≤ h) (htw : p.tw ≠ 0) (hcf : p.cf ≠ 0) (hs : s.format = some "n") (hd : f.dispChanges = false)
    (hx : f.x = some ⟨m, lam⟩) (hy : f.y = some ⟨m, fun i => a + b / lam i ^ 2⟩) (z : ℝ) :
    ∃ v : Fin p.n → ℝ, getBetas polyfit spline s p z f = (.ok (.arr ⟨p.n, v⟩), f) ∧
      v ⟨h + 1, by omega⟩ ≠ Spec.inFrame (gridW p) (Spec.betaOfIndex fun l => a + b / l ^ 2) h (h + 1) := by
  refine ⟨_, C128_cauchy_partial polyfit hspl lam a b hm hlam hpos hr hh h2 htw hs hd hx hy z, ?_⟩
  dsimp only
  have hpi := Real.pi_ne_zero
  have hcm : cMks ≠ 0 := by unfold cMks; norm_num
  have hβ : ∀ w, Spec.betaOfIndex (fun l => a + b / l ^ 2) w = 10 ^ 12 / cMks * w * (a + b * w ^ 2 / (2 * Real.pi * cNmps) ^ 2) := by
    intro w
    unfold Spec.betaOfIndex cNmps
    rcases eq_or_ne w 0 with rfl | hw
    · simp
    · norm_num
      field_simp
  have h0 : (p.n : ℝ) / 2 = h := by rw [hh]; push_cast; ring
  have hm1 : (((h - 1 : ℕ) : ℕ) : ℝ) = h - 1 := by rw [Nat.cast_sub (by omega)]; simp
  have hval : Spec.inFrame (gridW p) (Spec.betaOfIndex fun l => a + b / l ^ 2) h (h + 1) =
      10 ^ 12 / cMks * (b / (2 * Real.pi * cNmps) ^ 2) * (3 * (2 * Real.pi * p.cf) * (2 * Real.pi / p.tw) ^ 2) := by
    unfold Spec.inFrame
    simp only [hβ]
    unfold gridW cNmps
    rw [h0]
    push_cast
    rw [hm1]
    field_simp
    ring
  have hne : Spec.inFrame (gridW p) (Spec.betaOfIndex fun l => a + b / l ^ 2) h (h + 1) ≠ 0 := by
    have hcn : cNmps ≠ 0 := by unfold cNmps; norm_num [hcm]
    rw [hval]
    positivity
  intro he
  have : ((cMks / 300000000) ^ 3 - 1) * Spec.inFrame (gridW p) (Spec.betaOfIndex fun l => a + b / l ^ 2) h (h + 1) = 0 := by
    linear_combination he
  rcases mul_eq_zero.mp this with h' | h'
  · unfold cMks at h'; norm_num at h'
  · exact hne h'

/-- C128 refuted for tables with decreasing wavelengths: the arrays are always flipped, so a spline that insists on
increasing abscissae raises. -/
theorem C128_decreasing_refuted (polyfit : PolyFit) {spline : Spline}
    (hspl : ∀ (n : ℕ) (x y : Fin n → ℝ), ¬ StrictMono x → spline ⟨n, x⟩ ⟨n, y⟩ = .error .ValueError) {s : Specs} {f : Fib} {m : ℕ}
    (lam n : Fin m → ℝ) (hm : 2 ≤ m) (hlam : StrictAnti lam) (hpos : ∀ i, 0 < lam i) (p : Pulse)
    (hs : s.format = some "n") (hd : f.dispChanges = false) (hx : f.x = some ⟨m, lam⟩) (hy : f.y = some ⟨m, n⟩) (z : ℝ) :
    getBetas polyfit spline s p z f = (.error .ValueError, f) := by
  have hraw : rawN spline f p = .error .ValueError := by
    unfold rawN
    rw [hx, hy]
    simp only [attr, except_bind_ok, Vec.map_mk, Vec.zip_mk, vrev]
    rw [hspl]
    · rfl
    · intro hmono
      have h1 := hmono (show (⟨0, by omega⟩ : Fin m) < ⟨1, by omega⟩ by simp [Fin.lt_def])
      have h2 : lam (⟨0, by omega⟩ : Fin m).rev < lam (⟨1, by omega⟩ : Fin m).rev :=
        hlam (Fin.rev_lt_rev.mpr (by simp [Fin.lt_def]))
      have := Real.pi_pos
      have h3 := div_lt_div_of_pos_left (show 0 < 2 * Real.pi * 10 ^ (-12 : ℤ) * (3 * 10 ^ 8) by positivity)
        (show 0 < lam (⟨0, by omega⟩ : Fin m).rev * 10 ^ (-9 : ℤ) from mul_pos (hpos _) (by positivity))
        (mul_lt_mul_of_pos_right h2 (show (0 : ℝ) < 10 ^ (-9 : ℤ) by positivity))
      exact absurd h1 (not_lt.mpr h3.le)
  unfold getBetas
  rw [hs]
  simp only [reload, hd, Bool.false_eq_true, if_false, show ¬ (("n" : String) = "D") by decide,
    show ¬ (("n" : String) = "GVD") by decide, if_true]
  rw [hraw]
  rfl

/-- four wavelengths and a grid of eight points meet the hypotheses -/
theorem C128_nonvacuous : (∃ spline, Spec.CubicSpline spline) ∧ StrictMono (fun i : Fin 4 => 1400 + 100 * ((i : ℕ) : ℝ)) ∧
    (∀ i : Fin 4, 0 < 1400 + 100 * ((i : ℕ) : ℝ)) ∧ (gridPulse 8).n = 2 * 4 ∧ (gridPulse 8).tw ≠ 0 ∧ (gridPulse 8).cf ≠ 0 := by
  refine ⟨cubicSpline_exists, fun i j h => ?_, fun i => by positivity, rfl, one_ne_zero, one_ne_zero⟩
  have : ((i : ℕ) : ℝ) < (j : ℕ) := by exact_mod_cast h
  show 1400 + 100 * ((i : ℕ) : ℝ) < 1400 + 100 * ((j : ℕ) : ℝ)
  linarith

/-! ## other formats, missing entries -/

/-- C27: for a format other than D, GVD and n, `get_betas` returns the number -1 instead of raising. -/
theorem C27_unknown_format (polyfit : PolyFit) (spline : Spline) {s : Specs} (p : Pulse) (z : ℝ) (f : Fib) {fmt : String}
    (hs : s.format = some fmt) (h1 : fmt ≠ "D") (h2 : fmt ≠ "GVD") (h3 : fmt ≠ "n") (hd : f.dispChanges = false) :
    getBetas polyfit spline s p z f = (.ok .minusOne, f) := by
  unfold getBetas
  rw [hs]
  simp only [reload, hd, Bool.false_eq_true, if_false, h1, h2, h3]

/-- C27: such a fibre then propagates as if every propagation constant were -1 per metre: without nonlinearity the whole spectrum is
turned by the same phase, whatever the coefficients say. -/
theorem C27_unknown_format_propagate_refuted {polyfit : PolyFit} {spline : Spline} {o o' : Ssfm.Obj} {p : Pulse} {F F' : Ssfm.FibObj} {N : ℕ}
    {r : Ssfm.Result} (h : Ssfm.propagate polyfit spline o p F N false = some (.ok (r, o', F'))) {a : Fin p.n → ℂ}
    (hp : Pulse.Holds p a) (he : p.n % 2 = 0) {L : ℝ} (hL : F.fib.length = some L) (hpos : 0 < L) {fmt : String}
    (hs : F.specs.format = some fmt) (h1 : fmt ≠ "D") (h2 : fmt ≠ "GVD") (h3 : fmt ≠ "n") (hd : F.fib.dispChanges = false)
    (hgam : getGamma F.fib 0 = .ok (some 0))
    (hm : o.method = .rk4ip) (hdz : 0 < o.dz) (hmin : 0 < o.dzMin) (heta : 0 < o.eta) (heta1 : o.eta ≠ 1) :
    ∃ (D : ℝ) (g : Vec ℝ) (G : Fin p.n → ℝ), L ≤ D ∧ getGain F.specs F.fib p = .ok g ∧ Ssfm.fill p.n g = .ok G ∧
      r.out.AW = .ok ⟨p.n, fun k => Complex.exp ((D : ℂ) * (-Complex.I + (G k : ℂ) / 2)) * a k⟩ := by
  have hb := C27_unknown_format polyfit spline p 0 F.fib hs h1 h2 h3 hd
  obtain ⟨D, b, B, g, G, e1, e2, e3, e4, e5, e6⟩ := C41_propagate h hp he hL hpos (fun f hf => by rw [← hf, hb]; exact hgam) hm hdz hmin heta heta1
  rw [hb] at e2
  obtain rfl := (Except.ok.inj e2)
  have hB : (fun _ => -1) = B := Except.ok.inj e3
  refine ⟨D, g, G, e1, e4, e5, ?_⟩
  rw [e6, ← hB]
  simp

/-- C28: for such a fibre `Beta2` raises `ValueError` (the number -1 cannot be differenced), on every grid with at least two points. -/
theorem C28_unknown_format (polyfit : PolyFit) (spline : Spline) {s : Specs} {p : Pulse} {v : Fin p.n → ℝ} (hv : p.V_THz = .ok ⟨p.n, v⟩) (hn : 2 ≤ p.n)
    (f : Fib) {fmt : String} (hs : s.format = some fmt) (h1 : fmt ≠ "D") (h2 : fmt ≠ "GVD") (h3 : fmt ≠ "n") (hd : f.dispChanges = false) :
    beta2 polyfit spline s p f = (.error .ValueError, f) := by
  have e1 : (⟨p.n, v⟩ : Vec ℝ).item 1 = .ok (v ⟨1, by omega⟩) := by
    unfold Vec.item
    rw [dif_pos (show 1 < p.n by omega)]
  have e0 : (⟨p.n, v⟩ : Vec ℝ).item 0 = .ok (v ⟨0, by omega⟩) := by
    unfold Vec.item
    rw [dif_pos (show 0 < p.n by omega)]
  unfold beta2
  rw [hv, C27_unknown_format polyfit spline p 0 f hs h1 h2 h3 hd]
  simp only [bind, Except.bind, e1, e0]

/-- C29: a data base entry without `gamma` raises `KeyError`, whatever else it contains; name, length and zero betas
have been stored by then. -/
theorem C29_db_without_gamma {s : Specs} (hs : s.gamma = none) (length : ℝ) (name : String) (order : ℕ) (f : Fib) :
    loadFromDb s length name order f =
      (.error .KeyError, { f with fibertype := some name, length := some length, betas := some ⟨1, fun _ => 0⟩ }) := by
  unfold loadFromDb
  rw [hs]

end PyNLO
