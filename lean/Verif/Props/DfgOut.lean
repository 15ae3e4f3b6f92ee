import Verif.Model.DfgOut
import Verif.Props.DfgMix
import Verif.Props.DfgSetup
import Verif.Props.SsfmProp

/-!
# Output of a DFG run: phases, shared pulse
-/

namespace PyNLO.Dfg

open PyM

variable {N : ℕ}

/-- The three waves of a problem. -/
def Which.wave (q : Prob N) : Which → Wave N
  | .pump => q.p
  | .sgnl => q.s
  | .idlr => q.i

/-- The phase of bin `j` at `z` in the frame that moves with the pump's strongest bin. -/
noncomputable def framePhase (q : Prob N) (c : Fin N) (z : ℝ) (w : Which) (j : Fin N) : ℝ :=
  ((w.wave q).k j + (w.wave q).k0) * z - (w.wave q).W j * z * q.p.n c / cMks

theorem phased_field (q : Prob N) (c : Fin N) (z : ℝ) (y : Fin (3 * N) → ℂ) (w : Which) (j : Fin N) :
    w.field (phased q c z y) j = w.field y j * Complex.exp (Complex.I * (framePhase q c z w j : ℝ)) := by
  have e : ∀ W : ℝ, z / (cMks / q.p.n c) * W = W * z * q.p.n c / cMks := by
    intro W
    rw [div_div_eq_mul_div]
    ring
  cases w <;> simp only [Which.field, phased, Ap_join, As_join, Ai_join, Wave.phasor, framePhase, Which.wave, e]

/-- C72, what holds: a call multiplies every saved field by a pure phase, in place; moduli, positions and the unused rows
stay. -/
theorem C72_moduli_partial (b : Built) (o : SolverOut b.N) :
    (processOutput b o).2.count = o.count ∧ (processOutput b o).2.xsave = o.xsave ∧
    (∀ r < o.count, ∀ (w : Which) j, w.field ((processOutput b o).2.ysave r) j =
      w.field (o.ysave r) j * Complex.exp (Complex.I * (framePhase b.prob b.center (o.xsave r) w j : ℝ))) ∧
    (∀ r < o.count, ∀ (w : Which) j, ‖w.field ((processOutput b o).2.ysave r) j‖ = ‖w.field (o.ysave r) j‖) ∧
    (∀ r, o.count ≤ r → (processOutput b o).2.ysave r = o.ysave r) := by
  have hst : (processOutput b o).2 = addPhases b.prob b.center o := by
    unfold processOutput
    simp only [bind_apply, modify_apply, get_apply, lift_apply]
    rcases b.pump.createClonedPulse with _ | _
    · rfl
    rcases b.pump.center_wavelength_nm with _ | _
    · rfl
    rcases b.sgnl.center_wavelength_nm with _ | _
    · rfl
    rcases b.idlr.center_wavelength_nm with _ | _
    · rfl
    dsimp only
    split_ifs <;> rfl
  rw [hst]
  have hf : ∀ r < o.count, ∀ (w : Which) j, w.field ((addPhases b.prob b.center o).ysave r) j =
      w.field (o.ysave r) j * Complex.exp (Complex.I * (framePhase b.prob b.center (o.xsave r) w j : ℝ)) := by
    intro r hr w j
    simp only [addPhases, if_pos hr]
    exact phased_field _ _ _ _ _ _
  refine ⟨rfl, rfl, hf, fun r hr w j => ?_, fun r hr => ?_⟩
  · rw [hf r hr, norm_mul, mul_comm Complex.I, Complex.norm_exp_ofReal_mul_I, mul_one]
  · simp only [addPhases, if_neg (not_lt.mpr hr)]

/-- C72: a second call multiplies by the phases again: a field comes out the same only if it vanishes or its phase is
trivial. -/
theorem C72_second_call (b : Built) (o : SolverOut b.N) {r : ℕ} (hr : r < o.count) (w : Which) (j : Fin b.N) :
    w.field ((processOutput b (processOutput b o).2).2.ysave r) j = w.field ((processOutput b o).2.ysave r) j ↔
      w.field (o.ysave r) j = 0 ∨ Complex.exp (Complex.I * (framePhase b.prob b.center (o.xsave r) w j : ℝ)) = 1 := by
  obtain ⟨h1, h2, h3, -⟩ := C72_moduli_partial b o
  obtain ⟨-, -, h3', -⟩ := C72_moduli_partial b (processOutput b o).2
  rw [h3' r (h1 ▸ hr), h2, h3 r hr]
  have hne := Complex.exp_ne_zero (Complex.I * (framePhase b.prob b.center (o.xsave r) w j : ℝ))
  constructor
  · intro h
    by_cases h0 : w.field (o.ysave r) j = 0
    · exact Or.inl h0
    · exact Or.inr (mul_left_cancel₀ (mul_ne_zero h0 hne) (by rw [h, mul_one]))
  · rintro (h | h) <;> rw [h] <;> ring

/-- C72: `get_z(n)` is the position of row `n`, counted from the end if negative, as the solver saved it. -/
theorem C72_z (b : Built) (o : SolverOut b.N) (r : Results) (n : ℤ) (hn : -(o.count : ℤ) ≤ n) (hn' : n < o.count) :
    getZ n ((processOutput b o).2, r) =
      (.ok (o.xsave (if 0 ≤ n then n.toNat else (n + o.count).toNat)), ((processOutput b o).2, r)) := by
  obtain ⟨h1, h2, -⟩ := C72_moduli_partial b o
  unfold getZ
  simp only [h1, h2, pyIndex]
  by_cases h : 0 ≤ n
  · rw [if_pos ⟨h, hn'⟩, if_pos h]
  · rw [if_neg (fun hc => h hc.1), if_pos ⟨hn, by omega⟩, if_neg h]

/-! ## The shared pulse -/

/-- The shared pulse after a `get_*` call. -/
noncomputable def retuned (p : Pulse) (f : Fin N → ℂ) (wl : ℝ) : Pulse :=
  { p with aw := some ⟨N, f⟩, cf := cNmps / wl, ready := true }

theorem retuned_holds {p : Pulse} {a : Fin N → ℂ} (h : Pulse.Holds p a) (f : Fin N → ℂ) (wl : ℝ) :
    Pulse.Holds (retuned p f wl) f := ⟨rfl, h.npts, h.pos, rfl⟩

theorem getField_eq {s : SolverOut N × Results} {w : Which} {n : ℤ} {k : ℕ} {a : Fin N → ℂ}
    (hk : pyIndex s.1.count n = .ok k) (hp : Pulse.Holds s.2.pulse a) (hw : w.wl s.2 ≠ 0) :
    getField w n s = (.ok .shared,
      (s.1, { s.2 with pulse := retuned s.2.pulse (w.field (s.1.ysave k)) (w.wl s.2) })) := by
  unfold getField
  rw [hk]
  dsimp only
  rw [hp.setAW_eq]
  dsimp only
  rw [Pulse.setCenterWavelengthNm, if_neg hw]
  rfl

/-- C73, what holds: a `get_*` call sets the pulse to the field and the centre asked for and returns it; size, window and
repetition rate are those of the pump. -/
theorem C73_call_partial {s : SolverOut N × Results} {w : Which} {n : ℤ} {k : ℕ} {a : Fin N → ℂ}
    (hk : pyIndex s.1.count n = .ok k) (hp : Pulse.Holds s.2.pulse a) (hw : w.wl s.2 ≠ 0) :
    ∃ h s', getField w n s = (.ok h, s') ∧ (h.deref s').AW = .ok ⟨N, w.field (s.1.ysave k)⟩ ∧
      (h.deref s').center_wavelength_nm = .ok (w.wl s.2) ∧ (h.deref s').n = s.2.pulse.n ∧ (h.deref s').tw = s.2.pulse.tw ∧
      (h.deref s').frep = s.2.pulse.frep := by
  refine ⟨_, _, getField_eq hk hp hw, rfl, ?_, rfl, rfl, rfl⟩
  have hc : cNmps ≠ 0 := by norm_num [cNmps, cMks]
  show Pulse.center_wavelength_nm (retuned _ _ _) = _
  have : (retuned s.2.pulse (w.field (s.1.ysave k)) (w.wl s.2)).cf = cNmps / w.wl s.2 := rfl
  rw [Pulse.center_wavelength_nm, this, if_neg (div_ne_zero hc hw)]
  congr 1
  field_simp

/-- A sequence of `get_*` calls. -/
noncomputable def calls : List (Which × ℤ) → SolverOut N × Results → SolverOut N × Results
  | [], s => s
  | (w, n) :: l, s => calls l (getField w n s).2

/-- The results object is usable: its pulse holds a field, no centre wavelength vanishes. -/
def Usable (s : SolverOut N × Results) : Prop :=
  (∃ a : Fin N → ℂ, Pulse.Holds s.2.pulse a) ∧ ∀ w : Which, w.wl s.2 ≠ 0

theorem getField_usable {s : SolverOut N × Results} (h : Usable s) (w : Which) (n : ℤ) :
    Usable (getField w n s).2 ∧ (getField w n s).2.1 = s.1 ∧ (∀ v : Which, v.wl (getField w n s).2.2 = v.wl s.2) ∧
      (getField w n s).2.2.pulse.tw = s.2.pulse.tw := by
  obtain ⟨⟨a, ha⟩, hw⟩ := h
  cases hk : pyIndex s.1.count n with
  | error e =>
    have : getField w n s = (.error e, s) := by simp only [getField, hk]
    rw [this]
    exact ⟨⟨⟨a, ha⟩, hw⟩, rfl, fun _ => rfl, rfl⟩
  | ok k =>
    rw [getField_eq hk ha (hw w)]
    have e : ∀ (v : Which) (p : Pulse), v.wl { s.2 with pulse := p } = v.wl s.2 := fun v p => by cases v <;> rfl
    refine ⟨⟨⟨_, retuned_holds ha _ _⟩, fun v => ?_⟩, rfl, fun v => e v _, rfl⟩
    rw [e]
    exact hw v

theorem calls_usable {s : SolverOut N × Results} (h : Usable s) (l : List (Which × ℤ)) :
    Usable (calls l s) ∧ (calls l s).1 = s.1 ∧ (∀ v : Which, v.wl (calls l s).2 = v.wl s.2) ∧
      (calls l s).2.pulse.tw = s.2.pulse.tw := by
  induction l generalizing s with
  | nil => exact ⟨h, rfl, fun _ => rfl, rfl⟩
  | cons c l ih =>
    obtain ⟨h1, h2, h3, h4⟩ := getField_usable h c.1 c.2
    obtain ⟨i1, i2, i3, i4⟩ := ih h1
    exact ⟨i1, i2.trans h2, fun v => (i3 v).trans (h3 v), i4.trans h4⟩

/-- C73: whatever calls came before, the last successful one decides what the pulse describes. -/
theorem C73_last_call {s : SolverOut N × Results} (h : Usable s) (l : List (Which × ℤ)) {w : Which} {n : ℤ} {k : ℕ}
    (hk : pyIndex s.1.count n = .ok k) :
    (Handle.deref (calls (l ++ [(w, n)]) s) .shared).AW = .ok ⟨N, w.field (s.1.ysave k)⟩ ∧
    (Handle.deref (calls (l ++ [(w, n)]) s) .shared).center_wavelength_nm = .ok (w.wl s.2) := by
  have happ : ∀ (l : List (Which × ℤ)) (s : SolverOut N × Results), calls (l ++ [(w, n)]) s = (getField w n (calls l s)).2 := by
    intro l
    induction l with
    | nil => intro s; rfl
    | cons c l ih => intro s; exact ih _
  obtain ⟨⟨⟨a, ha⟩, hw⟩, h2, h3, -⟩ := calls_usable h l
  obtain ⟨hh, s', e, e1, e2, -⟩ := C73_call_partial (s := calls l s) (w := w) (n := n) (by rw [h2]; exact hk) ha (hw w)
  rw [happ, e]
  cases hh
  rw [h2] at e1
  rw [h3] at e2
  exact ⟨e1, e2⟩

/-- C73 is refuted: after a later call for another of the three fields, a pulse that was handed out before describes that
other field, for every results object whose centre wavelengths differ. -/
theorem C73_refuted {s : SolverOut N × Results} (h : Usable s) {w w' : Which} {n n' : ℤ} {k k' : ℕ}
    (hk : pyIndex s.1.count n = .ok k) (hk' : pyIndex s.1.count n' = .ok k') (hne : w.wl s.2 ≠ w'.wl s.2) :
    ∃ hd s1 s2, getField w n s = (.ok hd, s1) ∧ (getField w' n' s1).2 = s2 ∧
      (hd.deref s1).AW = .ok ⟨N, w.field (s.1.ysave k)⟩ ∧ (hd.deref s2).AW = .ok ⟨N, w'.field (s.1.ysave k')⟩ ∧
      (hd.deref s1).center_wavelength_nm ≠ (hd.deref s2).center_wavelength_nm := by
  obtain ⟨⟨a, ha⟩, hw⟩ := h
  obtain ⟨hd, s1, e, e1, e2, -⟩ := C73_call_partial hk ha (hw w)
  have hu := (getField_usable ⟨⟨a, ha⟩, hw⟩ w n)
  rw [e] at hu
  obtain ⟨⟨⟨a', ha'⟩, hw'⟩, h2, h3, -⟩ := hu
  obtain ⟨hd', s2, f, f1, f2, -⟩ := C73_call_partial (s := s1) (by rw [h2]; exact hk') ha' (hw' w')
  cases hd
  cases hd'
  refine ⟨.shared, s1, s2, e, by rw [f], e1, ?_, ?_⟩
  · rw [f1, h2]
  · rw [e2, f2, h3]
    exact fun hc => hne (Except.ok.inj hc)

/-! ## C101 -/

/-- C101: the grid of the pulse that a `get_*` call returns has the pump's window, around the centre asked for. -/
theorem C101_grid {s : SolverOut N × Results} (h : Usable s) {w : Which} {n : ℤ} {k : ℕ}
    (hk : pyIndex s.1.count n = .ok k) : ∃ hd s', getField w n s = (.ok hd, s') ∧
      (hd.deref s').W = .ok ⟨N, fun j => 2 * Real.pi * Spec.binFreq (cNmps / w.wl s.2) s.2.pulse.tw N j⟩ := by
  obtain ⟨⟨a, ha⟩, hw⟩ := h
  refine ⟨_, _, getField_eq hk ha (hw w), ?_⟩
  show Pulse.W (retuned _ _ _) = _
  rw [(retuned_holds ha _ _).W_eq]
  congr 2
  funext j
  simp only [Spec.binFreq, retuned]
  ring

/-! ## From the constructor to the results -/

/-- The results of a constructed problem: usable, with the three centres and the pump's window. -/
theorem results_of {strF : ℝ → String} {p s : Pulse} {a : Args} {X : Crystal} {fp fs : Fin N → ℂ} (rand : ℕ → ℝ)
    (h : Call strF a X p s fp fs)
    (ho : ¬ (Spec.GridsOverlap cNmps p.cf p.tw N s.cf s.tw N ∨ Spec.GridsOverlap cNmps s.cf s.tw N (p.cf - s.cf) p.tw N)) :
    ∃ (q : Prob N) (c : Fin N) (p' s' i : Pulse) (y : Fin (3 * N) → ℂ),
      (dfgInit strF rand a X (p, s)).1 = .ok (some ⟨N, q, p', s', i, y, c⟩) ∧
      ∀ o : SolverOut N, 0 < o.count → ∃ r o', processOutput ⟨N, q, p', s', i, y, c⟩ o = (.ok r, o') ∧
        o'.count = o.count ∧ Usable (o', r) ∧
        r.pulse.tw = p.tw ∧ Which.wl r .pump = cNmps / p.cf ∧ Which.wl r .sgnl = cNmps / s.cf ∧
        Which.wl r .idlr = cNmps / (p.cf - s.cf) := by
  obtain ⟨q, c, p', s', i, fi, hb, sp, ss, hic, hit, hin, -⟩ := dfgInit_built rand h ho
  refine ⟨q, c, p', s', i, _, hb, fun o ho => ?_⟩
  have hcp : p'.cf ≠ 0 := by rw [sp.cf]; exact h.centre.1
  have hcs : s'.cf ≠ 0 := by rw [ss.cf]; exact h.centre.2.1
  have hci : i.cf ≠ 0 := by rw [hic]; exact sub_ne_zero.mpr h.centre.2.2
  have hready : p'.ready = true := sp.ready.trans h.pump.good.1.1
  have hh : Pulse.Holds p' fp := ⟨hready, sp.n.trans h.pump.n, h.pos.1, sp.aw.trans h.pump.field⟩
  have hc : cNmps ≠ 0 := by norm_num [cNmps, cMks]
  obtain ⟨cl, hcl⟩ : ∃ cl, Pulse.createClonedPulse p' = .ok cl := ⟨_, clone_explicit hh hcp⟩
  refine ⟨⟨cl, cNmps / p'.cf, cNmps / s'.cf, cNmps / i.cf⟩, addPhases q c o, ?_, rfl, ⟨⟨fp, ?_⟩, ?_⟩, ?_, ?_, ?_, ?_⟩
  rotate_left
  · exact (clone_holds hh hcl).1
  · intro w
    cases w <;> simp only [Which.wl] <;> exact div_ne_zero hc (by assumption)
  · exact ((clone_holds hh hcl).2.1.2.1).trans sp.tw
  · simp only [Which.wl, sp.cf]
  · simp only [Which.wl, ss.cf]
  · simp only [Which.wl, hic]
  · unfold processOutput
    simp only [bind_apply, modify_apply, get_apply, lift_apply, hcl, Pulse.center_wavelength_nm, if_neg hcp,
      if_neg hcs, if_neg hci]
    rw [if_neg (by show ¬ o.count = 0; omega)]
    rfl

/-- C101: a `get_sgnl` call on the results of an accepted problem returns a pulse on the signal's frequency grid exactly
when pump and signal have the same window, after any calls. -/
theorem C101_signal_grid {strF : ℝ → String} {p s : Pulse} {a : Args} {X : Crystal} {fp fs : Fin N → ℂ}
    (rand : ℕ → ℝ) (h : Call strF a X p s fp fs) (htp : p.tw ≠ 0) (hts : s.tw ≠ 0)
    (ho : ¬ (Spec.GridsOverlap cNmps p.cf p.tw N s.cf s.tw N ∨ Spec.GridsOverlap cNmps s.cf s.tw N (p.cf - s.cf) p.tw N)) :
    ∃ (q : Prob N) (c : Fin N) (p' s' i : Pulse) (y : Fin (3 * N) → ℂ),
      (dfgInit strF rand a X (p, s)).1 = .ok (some ⟨N, q, p', s', i, y, c⟩) ∧
      ∀ o : SolverOut N, 0 < o.count → ∃ r o', processOutput ⟨N, q, p', s', i, y, c⟩ o = (.ok r, o') ∧
        ∀ l n k, pyIndex o.count n = .ok k → ∃ hd st, getField .sgnl n (calls l (o', r)) = (.ok hd, st) ∧
          ((hd.deref st).W = s.W ↔ p.tw = s.tw) := by
  obtain ⟨q, c, p', s', i, y, hb, hr⟩ := results_of rand h ho
  refine ⟨q, c, p', s', i, y, hb, fun o hoc => ?_⟩
  obtain ⟨r, o', hpo, hcnt, hu, htw, -, hws, -⟩ := hr o hoc
  refine ⟨r, o', hpo, fun l n k hk => ?_⟩
  obtain ⟨u1, u2, u3, u4⟩ := calls_usable hu l
  obtain ⟨hd, st, hg, hW⟩ := C101_grid u1 (w := .sgnl) (n := n) (k := k) (by rw [u2]; show pyIndex o'.count n = _; rw [hcnt, hk])
  refine ⟨hd, st, hg, ?_⟩
  have hc : cNmps ≠ 0 := by norm_num [cNmps, cMks]
  have hsW : s.W = .ok ⟨N, fun j => 2 * Real.pi * Spec.binFreq s.cf s.tw N j⟩ := by
    have hs : Pulse.Holds s fs := ⟨h.sgnl.good.1.1, h.sgnl.n, h.pos.1, h.sgnl.field⟩
    rw [hs.W_eq]
    congr 2
    funext j
    simp only [Spec.binFreq]
    ring
  have e1 : Which.wl (calls l (o', r)).2 .sgnl = cNmps / s.cf := (u3 .sgnl).trans hws
  have e2 : (calls l (o', r)).2.pulse.tw = p.tw := u4.trans htw
  have e3 : cNmps / (cNmps / s.cf) = s.cf := by have := h.centre.2.1; field_simp
  rw [hW, hsW, e1, e2, e3]
  constructor
  · intro he
    have := congrFun (eq_of_heq (Vec.mk.inj (Except.ok.inj he)).2) ⟨0, h.pos.1⟩
    have hpi := Real.pi_pos
    have h2 := mul_left_cancel₀ (by positivity) this
    simp only [Spec.binFreq, add_right_inj, Nat.cast_zero] at h2
    have hN' : (0 : ℝ) < N := by exact_mod_cast h.pos.1
    have h3 : ((0 : ℝ) - N / 2) * s.tw = ((0 : ℝ) - N / 2) * p.tw := by
      rw [div_eq_div_iff htp hts] at h2
      exact h2
    exact (mul_left_cancel₀ (by linarith : ((0 : ℝ) - N / 2) ≠ 0) h3).symm
  · intro he
    rw [he]

/-- C101 is refuted by the problem of `C98_refuted`. -/
theorem C101_refuted {strF : ℝ → String} (rand : ℕ → ℝ) : ∃ (q : Prob 2) (c : Fin 2) (p' s' i : Pulse) (y : Fin (3 * 2) → ℂ),
    (dfgInit strF rand exArgs exXtal (exPulse 300 10, exPulse 200 20)).1 = .ok (some ⟨2, q, p', s', i, y, c⟩) ∧
    ∀ o : SolverOut 2, 0 < o.count → ∃ r o' hd st, processOutput ⟨2, q, p', s', i, y, c⟩ o = (.ok r, o') ∧
      getField .sgnl 0 (o', r) = (.ok hd, st) ∧ (hd.deref st).W ≠ (exPulse 200 20).W := by
  obtain ⟨q, c, p', s', i, y, h1, h2⟩ := C101_signal_grid (strF := strF) rand (exCall strF 10 20) (by norm_num [exPulse])
    (by norm_num [exPulse]) (exNoOverlap (by norm_num) (by norm_num))
  refine ⟨q, c, p', s', i, y, h1, fun o ho => ?_⟩
  obtain ⟨r, o', hpo, hg⟩ := h2 o ho
  obtain ⟨hd, st, h3, h4⟩ := hg [] 0 0 (by simp [pyIndex, ho])
  refine ⟨r, o', hd, st, hpo, h3, fun hc => ?_⟩
  have := h4.mp hc
  norm_num [exPulse] at this

/-! ## Witnesses -/

/-- A problem whose pump has the phase `π` in bin 0 after one metre. -/
noncomputable def exBuilt : Built where
  N := 2
  prob := { exGuided with p := { exGuided.p with k := fun _ => 0, k0 := Real.pi + 10 / cMks } }
  pump := exPulse 300 10
  sgnl := exPulse 200 10
  idlr := exPulse 100 10
  ystart := fun _ => 1
  center := 0

def exOut : SolverOut exBuilt.N where
  count := 1
  xsave := fun _ => 1
  ysave := fun _ _ => 1

theorem exBuilt_run (o : SolverOut exBuilt.N) (h : o.count = 1) :
    ∃ r, (processOutput exBuilt o).1 = .ok r ∧ Usable ((processOutput exBuilt o).2, r) ∧ Which.wl r .pump ≠ Which.wl r .sgnl := by
  have hh : Pulse.Holds (exPulse 300 10) (fun _ : Fin 2 => (1 : ℂ)) := ⟨rfl, rfl, by norm_num, rfl⟩
  obtain ⟨cl, hcl⟩ : ∃ cl, Pulse.createClonedPulse (exPulse 300 10) = .ok cl :=
    ⟨_, clone_explicit hh (by norm_num [exPulse])⟩
  have hc : cNmps ≠ 0 := by norm_num [cNmps, cMks]
  have h3 : (exPulse 300 10).center_wavelength_nm = .ok (cNmps / 300) := by simp [Pulse.center_wavelength_nm, exPulse]
  have h2 : (exPulse 200 10).center_wavelength_nm = .ok (cNmps / 200) := by simp [Pulse.center_wavelength_nm, exPulse]
  have h1 : (exPulse 100 10).center_wavelength_nm = .ok (cNmps / 100) := by simp [Pulse.center_wavelength_nm, exPulse]
  refine ⟨⟨cl, cNmps / 300, cNmps / 200, cNmps / 100⟩, ?_, ⟨⟨_, (clone_holds hh hcl).1⟩, ?_⟩, ?_⟩
  · unfold processOutput
    simp only [bind_apply, modify_apply, get_apply, lift_apply, show exBuilt.pump = exPulse 300 10 from rfl,
      show exBuilt.sgnl = exPulse 200 10 from rfl, show exBuilt.idlr = exPulse 100 10 from rfl, hcl, h1, h2, h3]
    rw [if_neg (by show ¬ o.count = 0; omega)]
    rfl
  · intro w
    cases w <;> simp only [Which.wl] <;> exact div_ne_zero hc (by norm_num)
  · simp only [Which.wl]
    intro he
    rw [div_eq_div_iff (by norm_num) (by norm_num)] at he
    have := mul_left_cancel₀ hc he
    norm_num at this

/-- C72 is refuted: processing the same solver output twice gives another pump field, and the pulse obtained from the first
results object changes with it. -/
theorem C72_repeat_refuted : ∃ (b : Built) (o o1 o2 : SolverOut b.N) (r r' : Results),
    processOutput b o = (.ok r, o1) ∧ processOutput b o1 = (.ok r', o2) ∧
    (∃ j, Which.field (o2.ysave 0) .pump j ≠ Which.field (o1.ysave 0) .pump j) ∧
    (Handle.deref (getField .pump 0 (o2, r)).2 .shared).AW ≠ (Handle.deref (getField .pump 0 (o1, r)).2 .shared).AW := by
  obtain ⟨r, hr, hu, -⟩ := exBuilt_run exOut rfl
  obtain ⟨c1, -⟩ := C72_moduli_partial exBuilt exOut
  obtain ⟨r', hr', hu', -⟩ := exBuilt_run (processOutput exBuilt exOut).2 c1
  obtain ⟨c2, -⟩ := C72_moduli_partial exBuilt (processOutput exBuilt exOut).2
  have key : Which.field ((processOutput exBuilt (processOutput exBuilt exOut).2).2.ysave 0) .pump (0 : Fin 2) ≠
      Which.field ((processOutput exBuilt exOut).2.ysave 0) .pump (0 : Fin 2) := by
    intro hc
    rcases (C72_second_call exBuilt exOut (by show 0 < 1; norm_num) .pump (0 : Fin 2)).mp hc with h | h
    · exact one_ne_zero h
    · have hph : framePhase exBuilt.prob exBuilt.center (exOut.xsave 0) .pump (0 : Fin 2) = Real.pi := by
        simp only [framePhase, Which.wave, exBuilt, exGuided, exOut]
        norm_num
      rw [hph, mul_comm, Complex.exp_pi_mul_I] at h
      norm_num at h
  refine ⟨exBuilt, exOut, _, _, r, r', Prod.ext hr rfl, Prod.ext hr' rfl, ⟨_, key⟩, ?_⟩
  obtain ⟨⟨a, ha⟩, hw⟩ := hu
  rw [getField_eq (s := ((processOutput exBuilt exOut).2, r)) (w := .pump) (n := 0) (k := 0)
      (by show pyIndex (processOutput exBuilt exOut).2.count 0 = _; rw [c1]; rfl) ha (hw _),
    getField_eq (s := ((processOutput exBuilt (processOutput exBuilt exOut).2).2, r)) (w := .pump) (n := 0) (k := 0)
      (by show pyIndex (processOutput exBuilt (processOutput exBuilt exOut).2).2.count 0 = _; rw [c2, c1]; rfl) ha (hw _)]
  intro hc
  have := congrFun (eq_of_heq (Vec.mk.inj (Except.ok.inj hc)).2) (0 : Fin 2)
  exact key this

theorem C73_nonvacuous : ∃ (s : SolverOut exBuilt.N × Results), Usable s ∧ pyIndex s.1.count 0 = .ok 0 ∧
    Which.wl s.2 .pump ≠ Which.wl s.2 .sgnl := by
  obtain ⟨r, hr, hu, hne⟩ := exBuilt_run exOut rfl
  refine ⟨_, hu, ?_, hne⟩
  show pyIndex (processOutput exBuilt exOut).2.count 0 = _
  rw [(C72_moduli_partial exBuilt exOut).1]
  rfl

end PyNLO.Dfg
