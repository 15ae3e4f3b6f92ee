import Verif.Lemmas.SplitStep
import Verif.Props.SsfmConverge

/-! # C159: the split-step method follows the equation with half of the dispersion and half of the gain -/

namespace PyNLO

open Complex Ssfm Pulse Set
open scoped Topology ContDiff

variable {n : ℕ}

/-- solutions of the equation with half of the linear part, in the order of the solver -/
theorem Solves.shift_half {P : Params n} {β : Fin n → ℝ} {g : ℝ} {R : Fin n → ℂ} {γ : ℝ} (h : Describes P β g R γ) {a b : ℝ} {U : ℝ → Fin n → ℂ}
    (hU : Solves (fun k => β k / 2) (g / 2) R γ a b U) : ∀ z ∈ Ioo a b, HasDerivAt (fun z => fftshift (U z))
      (applySpec (fun k => linPart P 1 k / 2) (fftshift (U z)) + nonPart P 1 (fftshift (U z))) z := by
  have hd : Describes { P with betas := fftshift fun k => β k / 2, alpha := fun _ => -(g / 2) } (fun k => β k / 2) (g / 2) R γ :=
    ⟨rfl, rfl, h.resp, h.gamma, h.ss⟩
  intro z hz
  have h1 := hU.shift hd z hz
  have e : linPart { P with betas := fftshift fun k => β k / 2, alpha := fun _ => -(g / 2) } 1 = fun k => linPart P 1 k / 2 := by
    funext k
    unfold linPart
    rw [h.betas, h.alpha]
    show ((1 : ℝ) : ℂ) * (I * ((β (rollIdx _ k) / 2 : ℝ) : ℂ) - ((-(g / 2) : ℝ) : ℂ) / 2) = ((1 : ℝ) : ℂ) * (I * ((β (rollIdx _ k) : ℝ) : ℂ) - ((-g : ℝ) : ℂ) / 2) / 2
    push_cast
    ring
  rw [e] at h1
  exact h1

section
variable {polyfit : Fiber.PolyFit} {spline : Fiber.Spline} {o : Obj} {p : Pulse} {F : FibObj} {f1 : Fiber.Fib} {β : Fin p.n → ℝ}
  {g γ fR : ℝ} {R : Fin p.n → ℂ}

/-- C159: with the split-step method and without self-steepening, the columns of `AT` converge to the solution of the propagation equation
in which the propagation constants and the gain are *halved*: the error is at most a constant divided by `n_steps`, and by `n_steps²` if
the extrapolation order is set to 2. -/
theorem C159_halved {a : Fin p.n → ℂ} (hp : Holds p a) (he : p.n % 2 = 0) (hcf : p.cf ≠ 0) (h : Loads polyfit spline o p F f1 β g R γ fR)
    {L : ℝ} (hL : F.fib.length = some L) (hpos : 0 < L) (hm : o.method = .ssfm) (heta : 0 < o.eta) (heta1 : o.eta ≠ 1) (hss : o.disableSS = true)
    (hdz : 0 < o.dz) (hmin : 0 < o.dzMin) (hle : 0 < o.localError) {x b : ℝ} (hx : x < 0) (hb : L < b) {U : ℝ → Fin p.n → ℂ}
    (hU : Solves (fun k => β k / 2) (g / 2) R γ x b U) (hU0 : p.AT = .ok ⟨p.n, U 0⟩) (hne : U 0 ≠ 0) (m : ℕ) (hmo : m = 1 ∨ m = 2 ∧ o.eta = 2) :
    ∃ (N0 : ℕ) (C : ℝ), ∀ N, N0 ≤ N → ∃ r o' F', propagate polyfit spline o p F N false = some (.ok (r, o', F')) ∧ r.AT.length = N ∧
      ∀ i < N, ∃ v : Fin p.n → ℂ, r.AT[i]? = some ⟨p.n, v⟩ ∧ ∀ j, ‖v j - U ((i + 1) * (L / N)) j‖ ≤ C / N ^ m := by
  obtain ⟨P0, P, hs, hl, hd, e1, e2, e3, e4, -⟩ := setup_describes hp h hss
  have hA : U 0 = ifftT a := by
    rw [hp.AT_eq] at hU0
    have := Except.ok.inj hU0
    simp only [Vec.mk.injEq, heq_eq_eq, true_and] at this
    exact this.symm
  have hP : P.Ok := ⟨by rw [e4]; exact hmin, by rw [e2]; exact heta⟩
  have hne' : fftshift (ifftT a) ≠ 0 := by
    intro h0
    refine hne ?_
    rw [hA, ← ifftshift_fftshift (ifftT a), h0]
    rfl
  obtain ⟨N0, C, hN0, hconv⟩ := split_converge hP (e1.trans hm) hd.ss (by rw [e2]; exact heta1) (by rw [e3]; exact hle) hne' hdz hpos hx hb
    (by rw [hA]) (hU.shift_half hd) m (by rw [e2]; exact hmo)
  refine ⟨N0, C, fun N hN => ?_⟩
  obtain ⟨r, o', hr, -⟩ := C43_returns (hN0.trans hN) hL hpos hp hcf hs hl hdz hmin heta
  obtain ⟨S, s1, s2, s3, s4⟩ := propagate_trace hr hp he hL hs hl
  refine ⟨r, o', _, hr, by rw [s4]; simp, fun i hi => ⟨ifftshift (S (i + 1)).A, by rw [s4]; simp [hi], fun j => ?_⟩⟩
  have := hconv N hN S s1 s2 s3 (i + 1) (by omega)
  have h2 := (norm_le_pi_norm ((S (i + 1)).A - fftshift (U ((i + 1 : ℕ) * (L / N)))) (rollIdx (-((p.n / 2 : ℕ) : ℤ)) j)).trans this
  have e : fftshift (U ((i + 1 : ℕ) * (L / N))) (rollIdx (-((p.n / 2 : ℕ) : ℤ)) j) = U ((i + 1) * (L / N)) j := by
    have := congrFun (ifftshift_fftshift (U ((i + 1 : ℕ) * (L / N)))) j
    simpa [ifftshift, roll] using this
  rw [Pi.sub_apply, e] at h2
  exact h2

/-- C116: with any other extrapolation order the default method converges with fourth order. -/
theorem C116_fourth {a : Fin p.n → ℂ} (hp : Holds p a) (he : p.n % 2 = 0) (hcf : p.cf ≠ 0) (h : Loads polyfit spline o p F f1 β g R γ fR)
    {L : ℝ} (hL : F.fib.length = some L) (hpos : 0 < L) (hm : o.method = .rk4ip) (heta : 0 < o.eta) (heta1 : o.eta ≠ 1) (hss : o.disableSS = true)
    (hdz : 0 < o.dz) (hmin : 0 < o.dzMin) (hle : 0 < o.localError) {x b : ℝ} (hx : x < 0) (hb : L < b) {U : ℝ → Fin p.n → ℂ}
    (hU : Solves β g R γ x b U) (hU0 : p.AT = .ok ⟨p.n, U 0⟩) (hne : U 0 ≠ 0) :
    ∃ (N0 : ℕ) (C : ℝ), ∀ N, N0 ≤ N → ∃ r o' F', propagate polyfit spline o p F N false = some (.ok (r, o', F')) ∧ r.AT.length = N ∧
      ∀ i < N, ∃ v : Fin p.n → ℂ, r.AT[i]? = some ⟨p.n, v⟩ ∧ ∀ j, ‖v j - U ((i + 1) * (L / N)) j‖ ≤ C / N ^ 4 := by
  obtain ⟨P0, P, hs, hl, hd, e1, e2, e3, e4, -⟩ := setup_describes hp h hss
  have hA : U 0 = ifftT a := by
    rw [hp.AT_eq] at hU0
    have := Except.ok.inj hU0
    simp only [Vec.mk.injEq, heq_eq_eq, true_and] at this
    exact this.symm
  have hP : P.Ok := ⟨by rw [e4]; exact hmin, by rw [e2]; exact heta⟩
  have hne' : fftshift (ifftT a) ≠ 0 := by
    intro h0
    refine hne ?_
    rw [hA, ← ifftshift_fftshift (ifftT a), h0]
    rfl
  obtain ⟨N0, C, hN0, hconv⟩ := ip_converge hP (e1.trans hm) hd.ss (by rw [e2]; exact heta1) (by rw [e3]; exact hle) hne' hdz hpos hx hb
    (by rw [hA]) (hU.shift hd)
  refine ⟨N0, C, fun N hN => ?_⟩
  obtain ⟨r, o', hr, -⟩ := C43_returns (hN0.trans hN) hL hpos hp hcf hs hl hdz hmin heta
  obtain ⟨S, s1, s2, s3, s4⟩ := propagate_trace hr hp he hL hs hl
  refine ⟨r, o', _, hr, by rw [s4]; simp, fun i hi => ⟨ifftshift (S (i + 1)).A, by rw [s4]; simp [hi], fun j => ?_⟩⟩
  have := hconv N hN S s1 s2 s3 (i + 1) (by omega)
  have h2 := (norm_le_pi_norm ((S (i + 1)).A - fftshift (U ((i + 1 : ℕ) * (L / N)))) (rollIdx (-((p.n / 2 : ℕ) : ℤ)) j)).trans this
  have e : fftshift (U ((i + 1 : ℕ) * (L / N))) (rollIdx (-((p.n / 2 : ℕ) : ℤ)) j) = U ((i + 1) * (L / N)) j := by
    have := congrFun (ifftshift_fftshift (U ((i + 1 : ℕ) * (L / N)))) j
    simpa [ifftshift, roll] using this
  rw [Pi.sub_apply, e] at h2
  exact h2

/-- C159 is refuted for every fibre with gain (or loss): however many steps are taken, the last column stays away from the solution of
the propagation equation. -/
theorem C159_refuted {a : Fin p.n → ℂ} (hp : Holds p a) (he : p.n % 2 = 0) (hcf : p.cf ≠ 0) (h : Loads polyfit spline o p F f1 β g R γ fR)
    {L : ℝ} (hL : F.fib.length = some L) (hpos : 0 < L) (hm : o.method = .ssfm) (heta : 0 < o.eta) (heta1 : o.eta ≠ 1) (hss : o.disableSS = true)
    (hdz : 0 < o.dz) (hmin : 0 < o.dzMin) (hle : 0 < o.localError) (hg : g ≠ 0) {x b : ℝ} (hx : x < 0) (hb : L < b) {U : ℝ → Fin p.n → ℂ}
    (hU : Solves β g R γ x b U) (hU0 : p.AT = .ok ⟨p.n, U 0⟩) (hne : U 0 ≠ 0) :
    ∃ (N0 : ℕ) (ε : ℝ), 0 < ε ∧ ∀ N, N0 ≤ N → ∃ r o' F' v, propagate polyfit spline o p F N false = some (.ok (r, o', F')) ∧
      r.AT[N - 1]? = some ⟨p.n, v⟩ ∧ ∃ j, ε ≤ ‖v j - U L j‖ := by
  have hR := raman_real hp he h
  obtain ⟨V, hV, hV0⟩ := C116_exists (fun k => β k / 2) (g / 2) hR γ (U 0) (T := L + 1) (by linarith)
  obtain ⟨N0, C, hc⟩ := C159_halved hp he hcf h hL hpos hm heta heta1 hss hdz hmin hle (by linarith : -(L + 1) < 0) (by linarith : L < L + 1) hV
    (by rw [hV0]; exact hU0) (by rw [hV0]; exact hne) 1 (Or.inl rfl)
  have eU := solution_energy hR hU hx hpos.le hb
  have eV := solution_energy hR hV (by linarith) hpos.le (by linarith)
  rw [hV0] at eV
  obtain ⟨j, hj⟩ : ∃ j, V L j ≠ U L j := by
    by_contra hall
    push Not at hall
    have hVU : V L = U L := funext hall
    rw [hVU, eU] at eV
    have hE : Gnlse.energy (U 0) ≠ 0 := by
      intro h0
      refine hne (funext fun j => ?_)
      have := (Finset.sum_eq_zero_iff_of_nonneg (fun i _ => sq_nonneg (‖U 0 i‖))).1 h0 j (Finset.mem_univ j)
      simpa using this
    have := Real.exp_injective (mul_right_cancel₀ hE eV)
    have h2 : g * L = 0 := by linarith
    rcases mul_eq_zero.1 h2 with h3 | h3
    · exact hg h3
    · linarith
  set ε := ‖V L j - U L j‖ / 2 with hε
  have hεpos : 0 < ε := by
    have : 0 < ‖V L j - U L j‖ := norm_pos_iff.2 (sub_ne_zero.2 hj)
    positivity
  obtain ⟨N1, hN1⟩ := exists_nat_ge (|C| / ε)
  refine ⟨max N0 (max N1 1), ε, hεpos, fun N hN => ?_⟩
  have hN1' : 1 ≤ N := (le_max_right _ _).trans ((le_max_right _ _).trans hN)
  have hNr : (0 : ℝ) < N := by exact_mod_cast hN1'
  obtain ⟨r, o', F', hr, hlen, hcol⟩ := hc N ((le_max_left _ _).trans hN)
  obtain ⟨v, hv, hvj⟩ := hcol (N - 1) (by omega)
  refine ⟨r, o', F', v, hr, hv, j, ?_⟩
  have hz : (((N - 1 : ℕ) : ℝ) + 1) * (L / N) = L := by
    rw [Nat.cast_sub hN1']
    push_cast
    field_simp
    ring
  have h1 := hvj j
  rw [hz, pow_one] at h1
  have h2 : C / N ≤ ε := by
    rw [div_le_iff₀ hNr]
    have h3 : |C| / ε ≤ N := hN1.trans (by exact_mod_cast (le_max_left _ _).trans ((le_max_right _ _).trans hN))
    rw [div_le_iff₀ hεpos] at h3
    linarith [le_abs_self C]
  have h3 : ‖V L j - U L j‖ ≤ ‖v j - V L j‖ + ‖v j - U L j‖ := by
    have := norm_sub_le (v j - U L j) (v j - V L j)
    rw [show v j - U L j - (v j - V L j) = V L j - U L j by ring] at this
    linarith
  linarith

/-- C159 applies to every nonzero pulse on an even grid and every generated fibre with gain. -/
theorem C159_nonvacuous (polyfit : Fiber.PolyFit) (spline : Fiber.Spline) {p : Pulse} {a : Fin p.n → ℂ} (hp : Holds p a) (hcf : p.cf ≠ 0)
    (hn : 2 ≤ p.n) (he : p.n % 2 = 0) (ha : a ≠ 0) {length wl gamma gain : ℝ} {b : Vec ℝ} {units label : String} (hwl : wl ≠ 0) (hL : 0 < length)
    (hg : gain ≠ 0) :
    ∃ (β : Fin p.n → ℝ) (R : Fin p.n → ℂ) (A : Fin p.n → ℂ) (U : ℝ → Fin p.n → ℂ) (N0 : ℕ) (ε : ℝ), p.AT = .ok ⟨p.n, A⟩ ∧ A ≠ 0 ∧ U 0 = A ∧
      Solves β gain R gamma (-(length + 1)) (length + 1) U ∧ 0 < ε ∧ ∀ N, N0 ≤ N → ∃ r o' F' v,
        propagate polyfit spline { Obj.default with disableSS := true, method := .ssfm } p
          ⟨Fiber.genFib length wl b gamma gain units label Fiber.Fib.new, Fiber.genSpecs gain⟩ N false = some (.ok (r, o', F')) ∧
          r.AT[N - 1]? = some ⟨p.n, v⟩ ∧ ∃ j, ε ≤ ‖v j - U length j‖ := by
  obtain ⟨β, R, fR, h⟩ := loads_generated polyfit spline { Obj.default with disableSS := true, method := .ssfm } hp hn (length := length) (gamma := gamma)
    (gain := gain) (b := b) (units := units) (label := label) hwl (Or.inr (by norm_num [Obj.default]))
  have hA : ifftT a ≠ 0 := by
    intro h0
    refine ha ?_
    rw [← fftT_ifftT a, h0]
    funext k
    have := congrFun (fftT_smul 0 (fun _ : Fin p.n => (0 : ℂ))) k
    simp only [zero_mul] at this
    exact this
  obtain ⟨U, hU, hU0⟩ := C116_exists β gain (raman_real hp he h) gamma (ifftT a) (T := length + 1) (by linarith)
  obtain ⟨N0, ε, hε, hc⟩ := C159_refuted hp he hcf h rfl hL rfl (by norm_num [Obj.default]) (by norm_num [Obj.default]) rfl (by norm_num [Obj.default])
    (by norm_num [Obj.default]) (by norm_num [Obj.default]) hg (by linarith : -(length + 1) < 0) (by linarith : length < length + 1) hU
    (by rw [hU0]; exact hp.AT_eq) (by rw [hU0]; exact hA)
  exact ⟨β, R, ifftT a, U, N0, ε, hp.AT_eq, hA, hU0, hU, hε, hc⟩

end

end PyNLO
