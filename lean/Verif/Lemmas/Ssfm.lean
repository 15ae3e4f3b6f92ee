import Verif.Spec.Ssfm
import Verif.Props.SsfmCtrl
import Verif.Lemmas.Fft

/-! # Lemmas about the split-step integrator -/

namespace PyNLO.Ssfm

open Complex

variable {n : ℕ}

/-- sane settings: positive minimum step and order -/
structure Params.Ok (p : Params n) : Prop where
  min_pos : 0 < p.dzMin
  eta_pos : 0 < p.eta

theorem Params.Ok.cfg {p : Params n} (h : p.Ok) : p.cfg.Ok := ⟨h.min_pos, factor_gt_one h.eta_pos⟩

theorem calcExpD_eq (p : Params n) (h dir : ℝ) : calcExpD p h dir = Spec.halfStep p.betas p.alpha h dir := by
  funext k
  unfold calcExpD Spec.halfStep
  congr 1
  push_cast
  ring

/-- the cache is right, unless its key is the invalid step -1 -/
def CacheOK (p : Params n) (c : Cache n) : Prop :=
  ∀ h, c.lastH = some h → h ≠ -1 → c.expD = calcExpD p h c.lastDir

theorem refresh_expD {p : Params n} {c : Cache n} (hc : CacheOK p c) {h : ℝ} (hh : h ≠ -1) (dir : ℝ) :
    (refresh p h dir c).expD = calcExpD p h dir := by
  unfold refresh
  split_ifs with hk
  · rfl
  · rw [not_or, not_not, not_not] at hk
    rw [hc h hk.1 hh, hk.2]

theorem refresh_ok {p : Params n} {c : Cache n} (hc : CacheOK p c) {h : ℝ} (dir : ℝ) :
    CacheOK p (refresh p h dir c) := by
  unfold refresh
  split_ifs with hk
  · intro h' e _
    have : h = h' := by simpa using e
    rw [this]
  · exact hc

theorem advance_spec {p : Params n} {c : Cache n} (hc : CacheOK p c) {h : ℝ} (hh : h ≠ -1) (A : Fin n → ℂ) (dir : ℝ) :
    (advance p A h dir c).1 = Spec.adv p dir h A ∧ CacheOK p (advance p A h dir c).2 := by
  have he := refresh_expD hc hh dir
  have ho := refresh_ok hc (h := h) dir
  unfold advance Spec.adv
  cases p.method with
  | ssfm =>
    simp only
    split_ifs with hd
    · simp only [linearStep]
      exact ⟨by rw [he, calcExpD_eq], ho⟩
    · simp only [linearStep]
      exact ⟨by rw [he, calcExpD_eq], ho⟩
  | rk4ip =>
    simp only
    exact ⟨by rw [he, calcExpD_eq], ho⟩

/-- forget the cache -/
def toSt (s : Loop n) : Spec.St n := ⟨s.A, s.iter, s.ctrl⟩

theorem loopBody_spec {p : Params n} {dir : ℝ} {s : Loop n} (hc : CacheOK p s.cache) (hdz : 0 < s.ctrl.dz) :
    toSt (loopBody p dir s) = Spec.body p.cfg p.eta (Spec.adv p dir) (toSt s) ∧ CacheOK p (loopBody p dir s).cache := by
  obtain ⟨e1, o1⟩ := advance_spec hc (h := 2 * s.ctrl.dz) (by linarith) s.A dir
  obtain ⟨e2, o2⟩ := advance_spec o1 (h := s.ctrl.dz) (by linarith) s.A dir
  obtain ⟨e3, o3⟩ := advance_spec o2 (h := s.ctrl.dz) (by linarith) (Spec.adv p dir s.ctrl.dz s.A) dir
  unfold loopBody Spec.body Spec.stErr
  simp only [toSt]
  rw [e1, e2, e3]
  rcases hb : ctrlBody p.cfg s.ctrl (.val (localErr (Spec.adv p dir s.ctrl.dz (Spec.adv p dir s.ctrl.dz s.A))
    (Spec.adv p dir (2 * s.ctrl.dz) s.A))) with ⟨ok, ctrl⟩
  cases ok
  · exact ⟨rfl, o3⟩
  · exact ⟨rfl, o3⟩

namespace Spec

variable {c : Cfg} {eta : ℝ} {adv : ℝ → (Fin n → ℂ) → Fin n → ℂ} {s : St n} {k : ℕ}

theorem run_succ_pos (h : (run c eta adv s k).ctrl.dist > 0) :
    run c eta adv s (k + 1) = body c eta adv (run c eta adv s k) := by
  conv_lhs => unfold run
  rw [if_pos h]

theorem run_succ_neg (h : ¬ (run c eta adv s k).ctrl.dist > 0) : run c eta adv s (k + 1) = run c eta adv s k := by
  conv_lhs => unfold run
  rw [if_neg h]

theorem body_ctrl (c : Cfg) (eta : ℝ) (adv : ℝ → (Fin n → ℂ) → Fin n → ℂ) (s : St n) :
    (body c eta adv s).ctrl = (ctrlBody c s.ctrl (.val (stErr adv s))).2 := by
  unfold body
  rcases ctrlBody c s.ctrl (.val (stErr adv s)) with ⟨ok, ctrl⟩
  cases ok <;> rfl

/-- the control part of the loop is the control loop driven by the errors the fields produce -/
theorem run_ctrl (c : Cfg) (eta : ℝ) (adv : ℝ → (Fin n → ℂ) → Fin n → ℂ) (s : St n) (k : ℕ) :
    (run c eta adv s k).ctrl = (ctrlRun c (fun j => .val (stErr adv (run c eta adv s j))) s.ctrl k).1 := by
  induction k with
  | zero => rfl
  | succ k ih =>
    by_cases h : (run c eta adv s k).ctrl.dist > 0
    · rw [run_succ_pos h, body_ctrl]
      rw [ih] at h
      rw [ctrlRun_succ_pos h, ih]
    · rw [run_succ_neg h, ih]
      rw [ih] at h
      rw [ctrlRun_succ_neg h]

theorem run_stable (h : ¬ (run c eta adv s k).ctrl.dist > 0) (j : ℕ) :
    run c eta adv s (k + j) = run c eta adv s k := by
  induction j with
  | zero => rfl
  | succ j ih => rw [← add_assoc, run_succ_neg (by rw [ih]; exact h), ih]

theorem run_eq_of_done {k1 k2 : ℕ} (h1 : ¬ (run c eta adv s k1).ctrl.dist > 0) (h2 : ¬ (run c eta adv s k2).ctrl.dist > 0) :
    run c eta adv s k1 = run c eta adv s k2 := by
  rw [← run_stable h1 k2, ← run_stable h2 k1, add_comm]

theorem Returns.unique {deltaZ : ℝ} {A : Fin n → ℂ} {iter : ℕ} {dz : ℝ} {A1 A2 : Fin n → ℂ} {i1 i2 : ℕ} {d1 d2 : ℝ}
    (h1 : Returns c eta adv deltaZ A iter dz A1 i1 d1) (h2 : Returns c eta adv deltaZ A iter dz A2 i2 d2) :
    A1 = A2 ∧ i1 = i2 ∧ d1 = d2 := by
  obtain ⟨k1, e1, rfl, rfl, rfl⟩ := h1
  obtain ⟨k2, e2, rfl, rfl, rfl⟩ := h2
  rw [run_eq_of_done e1 e2]
  exact ⟨rfl, rfl, rfl⟩

theorem returns_exists (hc : c.Ok) {dz : ℝ} (hdz : 0 < dz) (deltaZ : ℝ) (adv : ℝ → (Fin n → ℂ) → Fin n → ℂ)
    (A : Fin n → ℂ) (iter : ℕ) : ∃ A' iter' dz', Returns c eta adv deltaZ A iter dz A' iter' dz' := by
  obtain ⟨s', l, k, hk, hfin⟩ := C35_terminates hc hdz deltaZ
    fun j => .val (stErr adv (run c eta adv ⟨A, iter, ctrlStart dz deltaZ⟩ j))
  refine ⟨_, _, _, k, ?_, rfl, rfl, rfl⟩
  rw [run_ctrl]
  simp only
  rw [hk]
  exact hfin

theorem run_dz_pos (hc : c.Ok) {dz : ℝ} (hdz : 0 < dz) {deltaZ : ℝ} (hd : 0 < deltaZ) (A : Fin n → ℂ) (iter : ℕ) (k : ℕ) :
    0 < (run c eta adv ⟨A, iter, ctrlStart dz deltaZ⟩ k).ctrl.dz := by
  obtain ⟨m, hm0, hm, hinv⟩ := Inv.start hdz hd hc
  rw [run_ctrl]
  exact lt_of_lt_of_le hm0 (hinv.run hc hm hm0 _ k).lower

end Spec

theorem loopRun_succ_pos {p : Params n} {dir : ℝ} {s : Loop n} {k : ℕ} (h : (loopRun p dir s k).ctrl.dist > 0) :
    loopRun p dir s (k + 1) = loopBody p dir (loopRun p dir s k) := by
  conv_lhs => unfold loopRun
  rw [if_pos h]

theorem loopRun_succ_neg {p : Params n} {dir : ℝ} {s : Loop n} {k : ℕ} (h : ¬ (loopRun p dir s k).ctrl.dist > 0) :
    loopRun p dir s (k + 1) = loopRun p dir s k := by
  conv_lhs => unfold loopRun
  rw [if_neg h]

theorem loopRun_spec {p : Params n} (hp : p.Ok) {dir deltaZ : ℝ} {f : Field n} (hdz : 0 < f.dz) (k : ℕ) :
    toSt (loopRun p dir (loopStart deltaZ f) k) =
      Spec.run p.cfg p.eta (Spec.adv p dir) ⟨f.A, f.iter, ctrlStart f.dz deltaZ⟩ k ∧
    CacheOK p (loopRun p dir (loopStart deltaZ f) k).cache := by
  induction k with
  | zero =>
    refine ⟨rfl, ?_⟩
    intro h e hne
    have : (-1 : ℝ) = h := by simpa [loopRun, loopStart] using e
    exact absurd this.symm hne
  | succ k ih =>
    obtain ⟨e, o⟩ := ih
    have ec : (loopRun p dir (loopStart deltaZ f) k).ctrl =
        (Spec.run p.cfg p.eta (Spec.adv p dir) ⟨f.A, f.iter, ctrlStart f.dz deltaZ⟩ k).ctrl := by rw [← e]; rfl
    by_cases h : (loopRun p dir (loopStart deltaZ f) k).ctrl.dist > 0
    · have h0 : 0 < deltaZ := by
        by_contra hno
        have : ∀ j, ¬ (Spec.run p.cfg p.eta (Spec.adv p dir) ⟨f.A, f.iter, ctrlStart f.dz deltaZ⟩ j).ctrl.dist > 0 := by
          intro j
          have h0 : ¬ (Spec.run p.cfg p.eta (Spec.adv p dir) ⟨f.A, f.iter, ctrlStart f.dz deltaZ⟩ 0).ctrl.dist > 0 := hno
          have := Spec.run_stable h0 j
          rw [zero_add] at this
          rw [this]; exact h0
        rw [ec] at h
        exact this k h
      have hpos : 0 < (loopRun p dir (loopStart deltaZ f) k).ctrl.dz := by
        rw [ec]; exact Spec.run_dz_pos hp.cfg hdz h0 _ _ k
      obtain ⟨e', o'⟩ := loopBody_spec (dir := dir) o hpos
      rw [loopRun_succ_pos h, Spec.run_succ_pos (by rw [← ec]; exact h), ← e]
      exact ⟨e', o'⟩
    · rw [loopRun_succ_neg h, Spec.run_succ_neg (by rw [← ec]; exact h)]
      exact ⟨e, o⟩

/-- the integrator returns, and what it returns is what the cache-free loop computes -/
theorem integrate_spec {p : Params n} (hp : p.Ok) (deltaZ dir : ℝ) {f : Field n} (hdz : 0 < f.dz) :
    ∃ f', integrate p deltaZ dir f = some f' ∧
      Spec.Returns p.cfg p.eta (Spec.adv p dir) deltaZ f.A f.iter f.dz f'.A f'.iter f'.dz := by
  obtain ⟨A', i', d', k, hk, -⟩ := Spec.returns_exists (eta := p.eta) hp.cfg hdz deltaZ (Spec.adv p dir) f.A f.iter
  have hex : ∃ k, ¬ (loopRun p dir (loopStart deltaZ f) k).ctrl.dist > 0 := by
    refine ⟨k, ?_⟩
    have := (loopRun_spec hp (dir := dir) (deltaZ := deltaZ) hdz k).1
    rw [← this] at hk
    exact hk
  unfold integrate
  rw [dif_pos hex]
  refine ⟨_, rfl, Nat.find hex, ?_, ?_, ?_, ?_⟩
  all_goals rw [← (loopRun_spec hp (dir := dir) (deltaZ := deltaZ) hdz (Nat.find hex)).1]
  · exact Nat.find_spec hex
  · rfl
  · rfl
  · rfl

end PyNLO.Ssfm
