import Verif.Model.DfgSetup
import Verif.Props.DfgMix
import Verif.Props.DfgPoling
import Verif.Lemmas.PulseCache

/-!
# Construction of a DFG problem: grid checks, energy matching
-/

namespace PyNLO.Dfg

open PyM Spec

/-- A configured pulse whose caches are empty or hold its current grids. -/
def Good (strF : ℝ → String) (p : Pulse) : Prop := Pulse.Coh strF {(p.cf, p.n)} p.tw p

/-- Equal up to the caches. -/
structure Same (p p' : Pulse) : Prop where
  n : p'.n = p.n
  cf : p'.cf = p.cf
  tw : p'.tw = p.tw
  aw : p'.aw = p.aw
  frep : p'.frep = p.frep
  ready : p'.ready = p.ready

theorem Same.refl (p : Pulse) : Same p p := ⟨rfl, rfl, rfl, rfl, rfl, rfl⟩

theorem Same.trans {p q r : Pulse} (h : Same p q) (h' : Same q r) : Same p r :=
  ⟨h'.n.trans h.n, h'.cf.trans h.cf, h'.tw.trans h.tw, h'.aw.trans h.aw, h'.frep.trans h.frep, h'.ready.trans h.ready⟩

/-- `wl_nm`, `W_mks`, `wl_mks` in terms of the three parameters. -/
noncomputable def nmOf (p : Pulse) (i : Fin p.n) : ℝ := cNmps / binFreq p.cf p.tw p.n i
noncomputable def wOf (p : Pulse) (i : Fin p.n) : ℝ := 2 * Real.pi * binFreq p.cf p.tw p.n i * 10 ^ 12
noncomputable def mOf (p : Pulse) (i : Fin p.n) : ℝ := 2 * Real.pi * cMks / wOf p i

theorem wGrid_bin {cf tw : ℝ} {n : ℕ} (i : Fin (Pulse.wGrid (cf, n) tw).len) :
    (Pulse.wGrid (cf, n) tw).val i = 2 * Real.pi * binFreq cf tw n i := by
  have hi : (i : ℕ) < n := i.isLt
  have hn : (n : ℝ) ≠ 0 := by exact_mod_cast (by omega : n ≠ 0)
  simp only [Pulse.wGrid, binFreq]
  rw [show (n : ℝ) * (tw / n) = tw by field_simp]
  ring

variable {strF : ℝ → String} {p s : Pulse}

theorem nm_vec (p : Pulse) : (Pulse.wGrid (p.cf, p.n) p.tw).map (fun w => 2 * Real.pi * cNmps / w) = ⟨p.n, nmOf p⟩ := by
  refine Vec.ext' rfl fun i h1 h2 => ?_
  show 2 * Real.pi * cNmps / (Pulse.wGrid (p.cf, p.n) p.tw).val ⟨i, h1⟩ = nmOf p ⟨i, h2⟩
  have := Real.pi_ne_zero
  rw [wGrid_bin, nmOf, mul_div_mul_left _ _ (by positivity)]

theorem w_vec (p : Pulse) : (Pulse.wGrid (p.cf, p.n) p.tw).map (· * 10 ^ 12) = ⟨p.n, wOf p⟩ := by
  refine Vec.ext' rfl fun i h1 h2 => ?_
  show (Pulse.wGrid (p.cf, p.n) p.tw).val ⟨i, h1⟩ * 10 ^ 12 = wOf p ⟨i, h2⟩
  rw [wGrid_bin, wOf]

theorem wl_nm_same (p : Pulse) : Same p (Pulse.wl_nm strF p).2 := by
  unfold Pulse.wl_nm
  rw [bind_apply, get_apply]
  dsimp only
  split
  · cases p.wlVal <;> exact Same.refl p
  · rw [bind_apply, modify_apply]
    dsimp only
    rw [bind_apply, read_apply]
    split
    · next h => obtain ⟨-, rfl⟩ := Prod.mk.inj h; exact ⟨rfl, rfl, rfl, rfl, rfl, rfl⟩
    · next h => obtain ⟨-, rfl⟩ := Prod.mk.inj h; exact ⟨rfl, rfl, rfl, rfl, rfl, rfl⟩

theorem W_mks_same (p : Pulse) : Same p (Pulse.W_mks strF p).2 := by
  unfold Pulse.W_mks
  rw [bind_apply, get_apply]
  dsimp only
  split
  · cases p.wVal <;> exact Same.refl p
  · rw [bind_apply, modify_apply]
    dsimp only
    rw [bind_apply, read_apply]
    split
    · next h => obtain ⟨-, rfl⟩ := Prod.mk.inj h; exact ⟨rfl, rfl, rfl, rfl, rfl, rfl⟩
    · next h => obtain ⟨-, rfl⟩ := Prod.mk.inj h; exact ⟨rfl, rfl, rfl, rfl, rfl, rfl⟩

theorem good_of {p p' : Pulse} (hs : Same p p') (h : Pulse.Coh strF {(p.cf, p.n)} p.tw p') : Good strF p' := by
  unfold Good
  rw [hs.cf, hs.n, hs.tw]
  exact h

theorem wl_nm_good (h : Good strF p) :
    ∃ p', Pulse.wl_nm strF p = (.ok ⟨p.n, nmOf p⟩, p') ∧ Good strF p' ∧ Same p p' := by
  obtain ⟨h1, h2⟩ := Pulse.wl_nm_coh (Set.injOn_singleton _ _) h
  rw [nm_vec] at h1
  exact ⟨_, Prod.ext h1 rfl, good_of (wl_nm_same p) h2, wl_nm_same p⟩

theorem W_mks_good (h : Good strF p) :
    ∃ p', Pulse.W_mks strF p = (.ok ⟨p.n, wOf p⟩, p') ∧ Good strF p' ∧ Same p p' := by
  obtain ⟨h1, h2⟩ := Pulse.W_mks_coh (Set.injOn_singleton _ _) h
  rw [w_vec] at h1
  exact ⟨_, Prod.ext h1 rfl, good_of (W_mks_same p) h2, W_mks_same p⟩

theorem wl_mks_good (h : Good strF p) :
    ∃ p', Pulse.wl_mks strF p = (.ok ⟨p.n, mOf p⟩, p') ∧ Good strF p' ∧ Same p p' := by
  obtain ⟨p', h1, h2, h3⟩ := W_mks_good h
  refine ⟨p', ?_, h2, h3⟩
  unfold Pulse.wl_mks
  rw [bind_apply, h1]
  rfl

theorem toFin_mk {α : Type} {N : ℕ} (v : Fin N → α) : toFin N ⟨N, v⟩ = .ok v := by
  simp [toFin]

/-- Two states with equal parameters have the same grids. -/
theorem Same.nm {p p' : Pulse} (h : Same p p') : (⟨p'.n, nmOf p'⟩ : Vec ℝ) = ⟨p.n, nmOf p⟩ := by
  refine Vec.ext' h.n fun i h1 h2 => ?_
  simp only [nmOf, h.cf, h.tw, h.n]

theorem Same.m {p p' : Pulse} (h : Same p p') : (⟨p'.n, mOf p'⟩ : Vec ℝ) = ⟨p.n, mOf p⟩ := by
  refine Vec.ext' h.n fun i h1 h2 => ?_
  simp only [mOf, wOf, h.cf, h.tw, h.n]

theorem gridsOf_good (h : Good strF p) :
    ∃ p', gridsOf strF p.n p = (.ok (wOf p, nmOf p, mOf p), p') ∧ Good strF p' ∧ Same p p' := by
  obtain ⟨p1, h1, g1, s1⟩ := W_mks_good h
  obtain ⟨p2, h2, g2, s2⟩ := wl_nm_good g1
  obtain ⟨p3, h3, g3, s3⟩ := wl_mks_good g2
  refine ⟨p3, ?_, g3, (s1.trans s2).trans s3⟩
  unfold gridsOf
  simp only [bind_apply, h1, h2, h3, lift_apply, s1.nm, (s1.trans s2).m, toFin_mk]
  rfl

theorem onP_eq {α : Type} {x : PyM Pulse α} {r : Except PyErr α} {p' : Pulse} (h : x p = (r, p')) :
    onP x (p, s) = (r, (p', s)) := by simp only [onP, h]

theorem onS_eq {α : Type} {x : PyM Pulse α} {r : Except PyErr α} {s' : Pulse} (h : x s = (r, s')) :
    onS x (p, s) = (r, (p, s')) := by simp only [onS, h]

theorem pyMin_lt_pyMax {m n : ℕ} (hm : 0 < m) (hn : 0 < n) (u : Fin m → ℝ) (v : Fin n → ℝ) :
    ∃ a b, pyMax ⟨m, u⟩ = .ok a ∧ pyMin ⟨n, v⟩ = .ok b ∧ (b < a ↔ ∃ i j, v j < u i) := by
  refine ⟨_, _, by rw [pyMax, dif_pos hm], by rw [pyMin, dif_pos hn], ?_⟩
  erw [Finset.lt_sup'_iff]
  simp only [Finset.inf'_lt_iff, Finset.mem_univ, true_and]

theorem overlap_iff : GridsOverlap cNmps p.cf p.tw p.n s.cf s.tw s.n ↔ ∃ i j, nmOf s j < nmOf p i := by
  constructor
  · rintro ⟨i, hi, j, hj, h⟩
    exact ⟨⟨i, hi⟩, ⟨j, hj⟩, h⟩
  · rintro ⟨i, j, h⟩
    exact ⟨i, i.isLt, j, j.isLt, h⟩

open Classical in
theorem checkOverlap_good {i : Pulse} (hp : Good strF p) (hs : Good strF s) (hi : Good strF i) (np : 0 < p.n)
    (ns : 0 < s.n) (ni : 0 < i.n) : ∃ p' s', checkOverlap strF i (p, s) =
      (if GridsOverlap cNmps p.cf p.tw p.n s.cf s.tw s.n ∨ GridsOverlap cNmps s.cf s.tw s.n i.cf i.tw i.n
        then .error .ValueError else .ok (), (p', s')) ∧
      Good strF p' ∧ Same p p' ∧ Good strF s' ∧ Same s s' := by
  obtain ⟨p1, e1, g1, m1⟩ := wl_nm_good hp
  obtain ⟨s1, e2, g2, m2⟩ := wl_nm_good hs
  obtain ⟨s2, e3, g3, m3⟩ := wl_nm_good g2
  obtain ⟨i1, e4, g4, m4⟩ := wl_nm_good hi
  obtain ⟨a, b, ha, hb, hab⟩ := pyMin_lt_pyMax np ns (nmOf p) (nmOf s)
  obtain ⟨c, d, hc, hd, hcd⟩ := pyMin_lt_pyMax ns ni (nmOf s) (nmOf i)
  rw [overlap_iff, overlap_iff, ← hab, ← hcd]
  unfold checkOverlap
  simp only [bind_apply, onP_eq e1, onS_eq e2, lift_apply, ha, hb]
  by_cases hba : b < a
  · rw [if_pos hba, if_pos (Or.inl hba)]
    exact ⟨p1, s1, rfl, g1, m1, g2, m2⟩
  · rw [if_neg hba]
    simp only [bind_apply, onS_eq e3, lift_apply, m2.nm, hc, e4, hd]
    by_cases hdc : d < c
    · rw [if_pos hdc, if_pos (Or.inr hdc)]
      exact ⟨p1, s2, rfl, g1, m1, g3, m2.trans m3⟩
    · rw [if_neg hdc, if_neg (by tauto)]
      exact ⟨p1, s2, rfl, g1, m1, g3, m2.trans m3⟩

/-- The idler: its centre frequency is the difference, its grid is that of the pump. -/
theorem makeIdler_eq (rand : ℕ → ℝ) (hp : p.cf ≠ 0) (hs : s.cf ≠ 0) (hne : p.cf ≠ s.cf) :
    ∃ i, makeIdler rand p s = .ok i ∧ i.cf = p.cf - s.cf ∧ i.tw = p.tw ∧ i.n = p.n ∧ Good strF i ∧
      ∃ b : Fin p.n → ℂ, i.AW = .ok ⟨p.n, b⟩ := by
  have hc : cNmps ≠ 0 := by norm_num [cNmps, cMks]
  have hd : p.cf - s.cf ≠ 0 := sub_ne_zero.mpr hne
  have e : 1 / (cNmps / p.cf) - 1 / (cNmps / s.cf) = (p.cf - s.cf) / cNmps := by field_simp
  have hwl : idlerWl p s = .ok (cNmps / (p.cf - s.cf)) := by
    simp only [idlerWl, Pulse.center_wavelength_nm, if_neg hp, if_neg hs, except_bind_ok, e]
    rw [if_neg (div_ne_zero hd hc), one_div_div]
  have hw : cNmps / (p.cf - s.cf) ≠ 0 := div_ne_zero hc hd
  simp only [makeIdler, hwl, except_bind_ok, Pulse.noisePulse, Pulse.construct]
  have h1 : Pulse.setCenterWavelengthNm (cNmps / (p.cf - s.cf)) (Pulse.init p.frep (some p.n)) =
      (.ok (), Pulse.setCenterFrequency (p.cf - s.cf) (Pulse.init p.frep (some p.n))) := by
    simp only [Pulse.setCenterWavelengthNm, if_neg hw, modify_apply]
    rw [show cNmps / (cNmps / (p.cf - s.cf)) = p.cf - s.cf by field_simp]
  set q : Pulse := Pulse.setTimeWindowPs p.tw (Pulse.setCenterFrequency (p.cf - s.cf) (Pulse.init p.frep (some p.n))) with hq
  have hqn : q.n = p.n := by rw [hq]; cases p.frep <;> rfl
  have hqa : q.aw = none := by rw [hq]; cases p.frep <;> rfl
  have hqt : q.tw = p.tw := by rw [hq]; cases p.frep <;> rfl
  have hqc : q.cf = p.cf - s.cf := by rw [hq]; cases p.frep <;> rfl
  have hqr : q.ready = true := by rw [hq]; cases p.frep <;> rfl
  have hk1 : q.wlKey = none := by rw [hq]; cases p.frep <;> rfl
  have hk2 : q.wKey = none := by rw [hq]; cases p.frep <;> rfl
  simp only [bind_apply, h1, modify_apply, ← hq, get_apply, Pulse.setAW_fresh hqr hqa]
  refine ⟨_, rfl, hqc, hqt, hqn, ?_, ?_⟩
  · refine ⟨⟨hqr, rfl, by simp⟩, ?_, ?_⟩
    · intro k hk
      have : q.wlKey = some k := hk
      rw [hk1] at this
      cases this
    · intro k hk
      have : q.wKey = some k := hk
      rw [hk2] at this
      cases this
  · simp only [Pulse.AW]
    rw [← hqn]
    exact ⟨_, rfl⟩

theorem argmin_ok {n : ℕ} (h : 0 < n) (y : Fin n → ℝ) : ∃ c, argmin y = .ok c := ⟨_, by rw [argmin, dif_pos h]⟩

theorem pyMax_ok {n : ℕ} (h : 0 < n) (y : Fin n → ℝ) : ∃ c, pyMax ⟨n, y⟩ = .ok c := ⟨_, by rw [pyMax, dif_pos h]⟩

theorem makeBeams_ok {N : ℕ} (hN : 0 < N) {a : Args} {mode : String} (h : a.wg = true → mode ≠ "BPM")
    (lamP lamS lamI nP nS nI : Fin N → ℝ) : ∃ b, makeBeams a mode lamP lamS lamI nP nS nI = .ok b ∧
      (a.wg = true → b = Beams.waveguide (a.aeff.getD 0)) := by
  unfold makeBeams
  cases ha : a.wg with
  | false =>
    have : N / 2 < N := Nat.div_lt_self hN (by norm_num)
    simp only [if_true, Beams.freeSpace, Beam.OneD.matchCentral, dif_pos this, except_bind_ok]
    exact ⟨_, rfl, fun h => by cases h⟩
  | true =>
    simp only [if_false, Bool.true_eq_false, if_neg (h ha)]
    exact ⟨_, rfl, fun _ => rfl⟩

/-- A configured pulse of `N` bins with field `a` and caches that are empty or current. -/
structure Ready (strF : ℝ → String) (p : Pulse) (N : ℕ) (a : Fin N → ℂ) : Prop where
  good : Good strF p
  n : p.n = N
  field : p.aw = some ⟨N, a⟩

theorem Ready.same {N : ℕ} {a : Fin N → ℂ} (h : Ready strF p N a) {p' : Pulse} (hg : Good strF p') (hs : Same p p') :
    Ready strF p' N a := ⟨hg, hs.n.trans h.n, hs.aw.trans h.field⟩

/-- The grids as functions on `Fin N`. -/
noncomputable def wN (p : Pulse) (N : ℕ) (j : Fin N) : ℝ := 2 * Real.pi * binFreq p.cf p.tw N j * 10 ^ 12
noncomputable def nmN (p : Pulse) (N : ℕ) (j : Fin N) : ℝ := cNmps / binFreq p.cf p.tw N j

noncomputable def mN (p : Pulse) (N : ℕ) (j : Fin N) : ℝ := 2 * Real.pi * cMks / wN p N j

theorem Ready.grids {N : ℕ} {a : Fin N → ℂ} (h : Ready strF p N a) :
    ∃ p', gridsOf strF N p = (.ok (wN p N, nmN p N, mN p N), p') ∧ Good strF p' ∧ Same p p' := by
  obtain ⟨hg, rfl, -⟩ := h
  obtain ⟨p', h1, h2, h3⟩ := gridsOf_good hg
  exact ⟨p', h1, h2, h3⟩

theorem le_pyMax {n : ℕ} {y : Fin n → ℝ} {c : ℝ} (h : pyMax ⟨n, y⟩ = .ok c) (j : Fin n) : y j ≤ c := by
  rw [pyMax, dif_pos (by exact Fin.pos j)] at h
  rw [← Except.ok.inj h]
  exact Finset.le_sup' (s := Finset.univ) y (Finset.mem_univ j)

/-- The wavenumbers of a wave: at each bin `n W / c`, stored relative to the centre bin. -/
structure Wave.Good {N : ℕ} (w : Wave N) : Prop where
  k : ∀ j, w.k j + w.k0 = w.n j * w.W j / cMks
  centre : ∀ j : Fin N, (j : ℕ) = N / 2 → w.k j = 0

theorem Wave.make_good {N : ℕ} (hN : N / 2 < N) (p : Pulse) (n : Fin N → ℝ) :
    (Wave.make (wN p N) (mN p N) n ⟨N / 2, hN⟩).Good where
  k j := by
    have hpi := Real.pi_pos.ne'
    show Beam.pulseK n (mN p N) j - Beam.pulseK n (mN p N) ⟨N / 2, hN⟩ + Beam.pulseK n (mN p N) ⟨N / 2, hN⟩ = n j * wN p N j / cMks
    rw [sub_add_cancel, Beam.pulseK, mN, div_div_eq_mul_div, show 2 * Real.pi * n j * wN p N j = (2 * Real.pi) * (n j * wN p N j) by ring,
      mul_div_mul_left _ _ (by positivity)]
  centre j hj := by
    obtain rfl : j = ⟨N / 2, hN⟩ := Fin.ext hj
    show Beam.pulseK n (mN p N) _ - Beam.pulseK n (mN p N) _ = 0
    ring

theorem assemble_good {N : ℕ} (hN : 0 < N) {a : Args} {X : Crystal} {dom : List ℝ × List ℝ} {i : Pulse}
    {fp fs fi : Fin N → ℂ} (hp : Ready strF p N fp) (hs : Ready strF s N fs) (hi : Ready strF i N fi)
    (hb : a.wg = true → X.mode ≠ "BPM") :
    ∃ (q : Prob N) (c : Fin N) (p' s' : Pulse), assemble strF a X dom i (p, s) =
      (.ok ⟨N, q, p, s, i, join fp fs fi, c⟩, (p', s')) ∧
      q.mode = X.mode ∧ q.deff = X.deff ∧ q.len = X.len ∧ q.domains = dom ∧ q.disableSPM = a.disableSPM ∧ q.gouy = a.gouy ∧
      q.p.W = wN p N ∧ q.s.W = wN s N ∧ q.i.W = wN i N ∧
      (a.wg = true → q.beams = .waveguide (a.aeff.getD 0) ∧ q.p.n = (fun j => X.n none (nmN p N j)) ∧
        q.s.n = (fun j => X.n none (nmN s N j)) ∧ q.i.n = fun j => X.n none (nmN i N j)) ∧
      (q.p.Good ∧ q.s.Good ∧ q.i.Good) ∧
      ∀ j, cMks / q.p.n j ≤ q.speed ∧ cMks / q.s.n j ≤ q.speed ∧ cMks / q.i.n j ≤ q.speed := by
  obtain ⟨p', ep, gp, sp⟩ := hp.grids
  obtain ⟨s', es, gs, ss⟩ := hs.grids
  obtain ⟨i', ei, gi, si⟩ := hi.grids
  have h2 : N / 2 < N := Nat.div_lt_self hN (by norm_num)
  obtain ⟨B, hB, hBw⟩ := makeBeams_ok hN hb (mN p N) (mN s N) (mN i N)
    (fun j => X.n (if a.wg = false ∧ X.mode = "BPM" then some "mix" else none) (nmN p N j))
    (fun j => X.n (if a.wg = false ∧ X.mode = "BPM" then some "o" else none) (nmN s N j))
    (fun j => X.n (if a.wg = false ∧ X.mode = "BPM" then some "o" else none) (nmN i N j))
  obtain ⟨c, hc⟩ := argmin_ok hN fun j => -‖fp j‖
  obtain ⟨v1, hv1⟩ := pyMax_ok hN fun j =>
    cMks / X.n (if a.wg = false ∧ X.mode = "BPM" then some "mix" else none) (nmN p N j)
  obtain ⟨v2, hv2⟩ := pyMax_ok hN fun j =>
    cMks / X.n (if a.wg = false ∧ X.mode = "BPM" then some "o" else none) (nmN s N j)
  obtain ⟨v3, hv3⟩ := pyMax_ok hN fun j =>
    cMks / X.n (if a.wg = false ∧ X.mode = "BPM" then some "o" else none) (nmN i N j)
  have hn : s.n = N := hs.n
  have ap : (p.AW >>= toFin N) = .ok fp := by simp only [Pulse.AW, hp.field, except_bind_ok, toFin_mk]
  have as : (s.AW >>= toFin N) = .ok fs := by simp only [Pulse.AW, hs.field, except_bind_ok, toFin_mk]
  have ai : (i.AW >>= toFin N) = .ok fi := by simp only [Pulse.AW, hi.field, except_bind_ok, toFin_mk]
  unfold assemble
  rw [bind_apply, get_apply]
  dsimp only
  rw [if_neg (by rw [hp.n, hs.n, hi.n]; simp)]
  subst hn
  simp only [bind_apply, onP_eq ep, onS_eq es, lift_apply, ei, hB, ap, as, ai]
  rw [dif_pos h2]
  simp only [bind_apply, lift_apply, hc, approxSpeed, hv1, hv2, hv3, except_bind_ok, pure_apply]
  refine ⟨_, _, _, _, rfl, rfl, rfl, rfl, rfl, rfl, rfl, rfl, rfl, rfl, fun hw => ⟨hBw hw, ?_, ?_, ?_⟩,
    ⟨Wave.make_good h2 p _, Wave.make_good h2 s _, Wave.make_good h2 i _⟩, fun j => ⟨?_, ?_, ?_⟩⟩
  · simp [Wave.make, hw]
  · simp [Wave.make, hw]
  · simp [Wave.make, hw]
  · exact (le_pyMax hv1 j).trans ((le_max_left _ _).trans (le_max_left _ _))
  · exact (le_pyMax hv2 j).trans ((le_max_right _ _).trans (le_max_left _ _))
  · exact (le_pyMax hv3 j).trans (le_max_right _ _)

/-! ## C71 -/

/-- What the constructor is called with: pump and signal of different centres, options that it supports, and a poling
function for which `precompute_poling` ends. -/
structure AnyCall (strF : ℝ → String) (a : Args) (X : Crystal) (p s : Pulse) {Np Ns : ℕ} (fp : Fin Np → ℂ)
    (fs : Fin Ns → ℂ) : Prop where
  pump : Ready strF p Np fp
  sgnl : Ready strF s Ns fs
  pos : 0 < Np ∧ 0 < Ns
  centre : p.cf ≠ 0 ∧ s.cf ≠ 0 ∧ p.cf ≠ s.cf
  area : a.wg = true → a.aeff ≠ none
  poled : X.mode = "PP" → precomputePoling X.pp X.len ≠ none

/-- A call that does not ask for birefringent phase matching in a waveguide. -/
structure Call (strF : ℝ → String) (a : Args) (X : Crystal) (p s : Pulse) {Np Ns : ℕ} (fp : Fin Np → ℂ)
    (fs : Fin Ns → ℂ) : Prop extends AnyCall strF a X p s fp fs where
  guided : a.wg = true → X.mode ≠ "BPM"

/-- The run of the constructor: overlap checks, then assembly. -/
theorem dfgInit_run {a : Args} {X : Crystal} {Np Ns : ℕ} {fp : Fin Np → ℂ} {fs : Fin Ns → ℂ} (rand : ℕ → ℝ)
    (h : AnyCall strF a X p s fp fs) :
    ∃ i p' s' dom fi, i.cf = p.cf - s.cf ∧ i.tw = p.tw ∧ Ready strF i Np fi ∧ Ready strF p' Np fp ∧ Same p p' ∧
      Ready strF s' Ns fs ∧ Same s s' ∧
      (if X.mode = "PP" then precomputePoling X.pp X.len else some ([], [])) = some dom ∧
      ((GridsOverlap cNmps p.cf p.tw Np s.cf s.tw Ns ∨ GridsOverlap cNmps s.cf s.tw Ns (p.cf - s.cf) p.tw Np) →
        (dfgInit strF rand a X (p, s)).1 = .error .ValueError) ∧
      (¬ (GridsOverlap cNmps p.cf p.tw Np s.cf s.tw Ns ∨ GridsOverlap cNmps s.cf s.tw Ns (p.cf - s.cf) p.tw Np) →
        (dfgInit strF rand a X (p, s)).1 = (assemble strF a X dom i (p', s')).1.map some) := by
  obtain ⟨i, hi, hic, hit, hin, hig, fi, hif⟩ := makeIdler_eq (strF := strF) rand h.centre.1 h.centre.2.1 h.centre.2.2
  obtain ⟨np, ns⟩ := h.pos
  have hpn := h.pump.n
  have hsn := h.sgnl.n
  obtain ⟨p', s', hck, hp', sp, hs', ss⟩ := checkOverlap_good h.pump.good h.sgnl.good hig (by omega) (by omega) (by omega)
  rw [hpn, hsn, hin, hpn, hic, hit] at hck
  obtain ⟨dom, hdom⟩ : ∃ dom, (if X.mode = "PP" then precomputePoling X.pp X.len else some ([], [])) = some dom := by
    split_ifs with hm
    · exact Option.ne_none_iff_exists'.mp (h.poled hm)
    · exact ⟨_, rfl⟩
  have hrun : dfgInit strF rand a X (p, s) =
      match checkOverlap strF i (p, s) with
      | (.ok _, st) => (match assemble strF a X dom i st with
        | (.ok b, st') => (.ok (some b), st')
        | (.error e, st') => (.error e, st'))
      | (.error e, st) => (.error e, st) := by
    unfold dfgInit
    rw [if_neg (by intro hc; exact h.area hc.1 hc.2)]
    simp only [bind_apply, get_apply, lift_apply, hi, hdom]
    rcases checkOverlap strF i (p, s) with ⟨_ | _, st⟩
    · rfl
    · simp only [bind_apply]
      rcases assemble strF a X dom i st with ⟨_ | _, st'⟩ <;> rfl
  have hir : ∃ fi, Ready strF i Np fi := by
    subst hpn
    exact ⟨fi, hig, hin, by unfold Pulse.AW at hif; split at hif <;> simp_all⟩
  obtain ⟨fi, hir⟩ := hir
  refine ⟨i, p', s', dom, fi, hic, hit, hir, h.pump.same hp' sp, sp, h.sgnl.same hs' ss, ss, hdom, fun ho => ?_, fun ho => ?_⟩
  · rw [hrun, hck, if_pos ho]
  · rw [hrun, hck, if_neg ho]
    dsimp only
    rcases assemble strF a X dom i (p', s') with ⟨_ | _, st'⟩ <;> rfl

/-- The problem that the constructor returns when the grids do not overlap and the sizes agree. -/
theorem dfgInit_built {a : Args} {X : Crystal} {N : ℕ} {fp fs : Fin N → ℂ} (rand : ℕ → ℝ) (h : Call strF a X p s fp fs)
    (ho : ¬ (GridsOverlap cNmps p.cf p.tw N s.cf s.tw N ∨ GridsOverlap cNmps s.cf s.tw N (p.cf - s.cf) p.tw N)) :
    ∃ (q : Prob N) (c : Fin N) (p' s' i : Pulse) (fi : Fin N → ℂ),
      (dfgInit strF rand a X (p, s)).1 = .ok (some ⟨N, q, p', s', i, join fp fs fi, c⟩) ∧
      Same p p' ∧ Same s s' ∧ i.cf = p.cf - s.cf ∧ i.tw = p.tw ∧ i.n = N ∧
      q.mode = X.mode ∧ q.deff = X.deff ∧ q.len = X.len ∧ q.disableSPM = a.disableSPM ∧ q.gouy = a.gouy ∧
      (X.mode = "PP" → precomputePoling X.pp X.len = some q.domains) ∧
      (∀ j, q.p.W j = 2 * Real.pi * binFreq p.cf p.tw N j * 10 ^ 12) ∧
      (∀ j, q.s.W j = 2 * Real.pi * binFreq s.cf s.tw N j * 10 ^ 12) ∧
      (∀ j, q.i.W j = 2 * Real.pi * binFreq (p.cf - s.cf) p.tw N j * 10 ^ 12) ∧
      (a.wg = true → q.beams = .waveguide (a.aeff.getD 0) ∧
        (∀ j, q.p.n j = X.n none (cNmps / binFreq p.cf p.tw N j)) ∧
        (∀ j, q.s.n j = X.n none (cNmps / binFreq s.cf s.tw N j)) ∧
        ∀ j, q.i.n j = X.n none (cNmps / binFreq (p.cf - s.cf) p.tw N j)) ∧
      (q.p.Good ∧ q.s.Good ∧ q.i.Good) ∧
      ∀ j, cMks / q.p.n j ≤ q.speed ∧ cMks / q.s.n j ≤ q.speed ∧ cMks / q.i.n j ≤ q.speed := by
  obtain ⟨i, p', s', dom, fi, hic, hit, hir, hp', sp, hs', ss, hdom, -, hacc⟩ := dfgInit_run rand h.toAnyCall
  obtain ⟨q, c, p'', s'', has, h1, h2, h3, h4, h5, h6, h7, h8, h9, h10, h11⟩ := assemble_good (X := X) (a := a) (dom := dom)
    h.pos.1 hp' hs' hir h.guided
  refine ⟨q, c, p', s', i, fi, by rw [hacc ho, has]; rfl, sp, ss, hic, hit, hir.n, h1, h2, h3, h5, h6, ?_, ?_, ?_, ?_, ?_, h11⟩
  · intro hm
    rw [if_pos hm] at hdom
    rw [hdom, h4]
  · intro j; rw [h7, wN, sp.cf, sp.tw]
  · intro j; rw [h8, wN, ss.cf, ss.tw]
  · intro j; rw [h9, wN, hic, hit]
  · intro hw
    obtain ⟨b1, b2, b3, b4⟩ := h10 hw
    refine ⟨b1, fun j => ?_, fun j => ?_, fun j => ?_⟩
    · simp only [b2, nmN, sp.cf, sp.tw]
    · simp only [b3, nmN, ss.cf, ss.tw]
    · simp only [b4, nmN, hic, hit]

/-- C71: the constructor raises `ValueError` exactly when the pump and signal grids overlap, the signal and idler grids
overlap, or the sizes differ; otherwise it returns a problem whose idler is centred at the difference frequency.  (Where a
bin has frequency zero the source has an infinite wavelength and the model 0; such grids are outside the model.) -/
theorem C71_outcome {a : Args} {X : Crystal} {Np Ns : ℕ} {fp : Fin Np → ℂ} {fs : Fin Ns → ℂ} (rand : ℕ → ℝ)
    (h : Call strF a X p s fp fs) :
    (((dfgInit strF rand a X (p, s)).1 = .error .ValueError) ↔
      GridsOverlap cNmps p.cf p.tw Np s.cf s.tw Ns ∨ GridsOverlap cNmps s.cf s.tw Ns (p.cf - s.cf) p.tw Np ∨ Np ≠ Ns) ∧
    (¬ (GridsOverlap cNmps p.cf p.tw Np s.cf s.tw Ns ∨ GridsOverlap cNmps s.cf s.tw Ns (p.cf - s.cf) p.tw Np ∨ Np ≠ Ns) →
      ∃ b, (dfgInit strF rand a X (p, s)).1 = .ok (some b) ∧ b.idlr.cf = b.pump.cf - b.sgnl.cf ∧
        b.pump.cf = p.cf ∧ b.sgnl.cf = s.cf ∧ b.N = Np) := by
  obtain ⟨i, p', s', dom, fi, hic, hit, hir, hp', sp, hs', ss, -, hrej, hacc⟩ := dfgInit_run rand h.toAnyCall
  by_cases ho : GridsOverlap cNmps p.cf p.tw Np s.cf s.tw Ns ∨ GridsOverlap cNmps s.cf s.tw Ns (p.cf - s.cf) p.tw Np
  · rw [hrej ho]
    exact ⟨⟨fun _ => by tauto, fun _ => rfl⟩, fun hc => absurd (by tauto) hc⟩
  · by_cases hn : Np = Ns
    · subst hn
      obtain ⟨q, c, p', s', i, fi, hb, sp, ss, hc, -⟩ := dfgInit_built rand h ho
      rw [hb]
      refine ⟨⟨fun hc => (by simp at hc), fun hc => absurd hc (by tauto)⟩, fun _ => ⟨_, rfl, ?_, sp.cf, ss.cf, rfl⟩⟩
      show i.cf = p'.cf - s'.cf
      rw [hc, sp.cf, ss.cf]
    · have hne : ¬ (p'.n = s'.n ∧ s'.n = i.n) := by
        rw [hp'.n, hs'.n]
        exact fun hc => hn hc.1
      have has : assemble strF a X dom i (p', s') = (.error .ValueError, (p', s')) := by
        unfold assemble
        rw [bind_apply, get_apply]
        dsimp only
        rw [if_pos hne]
        rfl
      rw [hacc ho, has]
      exact ⟨⟨fun _ => by tauto, fun _ => rfl⟩, fun hc => absurd (by tauto) hc⟩

/-- C71: the problem of an accepted call holds, for each wave and bin, the wavenumber `n W / c` relative to that of the
centre bin, with `W` the angular frequency of the bin, and a frame speed that no phase velocity exceeds. -/
theorem C71_waves {a : Args} {X : Crystal} {N : ℕ} {fp fs : Fin N → ℂ} (rand : ℕ → ℝ) (h : Call strF a X p s fp fs)
    (ho : ¬ (GridsOverlap cNmps p.cf p.tw N s.cf s.tw N ∨ GridsOverlap cNmps s.cf s.tw N (p.cf - s.cf) p.tw N)) :
    ∃ (q : Prob N) (c : Fin N) (p' s' i : Pulse) (y : Fin (3 * N) → ℂ),
      (dfgInit strF rand a X (p, s)).1 = .ok (some ⟨N, q, p', s', i, y, c⟩) ∧
      (∀ j, q.p.k j + q.p.k0 = q.p.n j * (2 * Real.pi * binFreq p.cf p.tw N j * 10 ^ 12) / cMks ∧
        q.s.k j + q.s.k0 = q.s.n j * (2 * Real.pi * binFreq s.cf s.tw N j * 10 ^ 12) / cMks ∧
        q.i.k j + q.i.k0 = q.i.n j * (2 * Real.pi * binFreq (p.cf - s.cf) p.tw N j * 10 ^ 12) / cMks) ∧
      (∀ j : Fin N, (j : ℕ) = N / 2 → q.p.k j = 0 ∧ q.s.k j = 0 ∧ q.i.k j = 0) ∧
      ∀ j, cMks / q.p.n j ≤ q.speed ∧ cMks / q.s.n j ≤ q.speed ∧ cMks / q.i.n j ≤ q.speed := by
  obtain ⟨q, c, p', s', i, fi, hb, -, -, -, -, -, -, -, -, -, -, -, wp, ws, wi, -, ⟨gp, gs, gi⟩, hv⟩ := dfgInit_built rand h ho
  refine ⟨q, c, p', s', i, _, hb, fun j => ?_, fun j hj => ⟨gp.centre j hj, gs.centre j hj, gi.centre j hj⟩, hv⟩
  rw [← wp, ← ws, ← wi]
  exact ⟨gp.k j, gs.k j, gi.k j⟩

/-- C71: birefringent phase matching in a waveguide is refused. -/
theorem C71_guided_bpm {a : Args} {X : Crystal} {N : ℕ} {fp fs : Fin N → ℂ} (rand : ℕ → ℝ) (h : AnyCall strF a X p s fp fs)
    (ho : ¬ (GridsOverlap cNmps p.cf p.tw N s.cf s.tw N ∨ GridsOverlap cNmps s.cf s.tw N (p.cf - s.cf) p.tw N))
    (hw : a.wg = true) (hm : X.mode = "BPM") : (dfgInit strF rand a X (p, s)).1 = .error .AssertionError := by
  obtain ⟨i, p', s', dom, fi, hic, hit, hi, hp, sp, hs, ss, -, -, hacc⟩ := dfgInit_run rand h
  rw [hacc ho]
  obtain ⟨p'', ep, gp, sp⟩ := hp.grids
  obtain ⟨s'', es, gs, ss⟩ := hs.grids
  obtain ⟨i', ei, gi, si⟩ := hi.grids
  have hn : s'.n = N := hs.n
  unfold assemble
  rw [bind_apply, get_apply]
  dsimp only
  rw [if_neg (by rw [hp.n, hs.n, hi.n]; simp)]
  subst hn
  simp only [bind_apply, onP_eq ep, onS_eq es, lift_apply, ei, makeBeams, hw, hm, Bool.true_eq_false, if_false, if_true]
  rfl

/-! ## C98 -/

/-- C98: an accepted problem on an even grid is energy matched exactly when pump and signal have the same time window; the
constructor does not look at the windows. -/
theorem C98_matched_iff {a : Args} {X : Crystal} {N : ℕ} {fp fs : Fin N → ℂ} (rand : ℕ → ℝ) (h : Call strF a X p s fp fs)
    (ho : ¬ (GridsOverlap cNmps p.cf p.tw N s.cf s.tw N ∨ GridsOverlap cNmps s.cf s.tw N (p.cf - s.cf) p.tw N))
    (he : N % 2 = 0) (htp : p.tw ≠ 0) (hts : s.tw ≠ 0) :
    ∃ (q : Prob N) (c : Fin N) (p' s' i : Pulse) (y : Fin (3 * N) → ℂ),
      (dfgInit strF rand a X (p, s)).1 = .ok (some ⟨N, q, p', s', i, y, c⟩) ∧ (Matched q ↔ p.tw = s.tw) := by
  obtain ⟨q, c, p', s', i, fi, hb, -, -, -, -, -, -, -, -, -, -, -, wp, ws, wi, -⟩ := dfgInit_built rand h ho
  refine ⟨q, c, p', s', i, _, hb, ?_⟩
  have hpi := Real.pi_pos
  have hN := h.pos.1
  constructor
  · intro hm
    have := hm ⟨0, hN⟩ ⟨0, hN⟩ ⟨N / 2, Nat.div_lt_self hN (by norm_num)⟩ (by simp)
    rw [wp, ws, wi] at this
    have hh : ((N / 2 : ℕ) : ℝ) = N / 2 := by
      rw [Nat.cast_div (Nat.dvd_of_mod_eq_zero he) (by norm_num)]
      norm_num
    have h2 : (2 * Real.pi * 10 ^ 12) * (((0 : ℝ) - N / 2) / p.tw) = (2 * Real.pi * 10 ^ 12) * (((0 : ℝ) - N / 2) / s.tw) := by
      simp only [binFreq, hh, Nat.cast_zero] at this
      linear_combination this
    have h3 := mul_left_cancel₀ (by positivity) h2
    have hN' : (0 : ℝ) < N := by exact_mod_cast hN
    have : (0 : ℝ) - N / 2 ≠ 0 := by linarith
    field_simp at h3
    exact mul_left_cancel₀ (by linarith : (0 * 2 - (N : ℝ)) ≠ 0) h3.symm
  · intro ht m i j hmij
    rw [wp, ws, wi]
    simp only [binFreq, ← ht]
    have h2 : N = 2 * (N / 2) := by omega
    have : ((i : ℕ) : ℝ) + (j : ℕ) = (m : ℕ) + (N : ℝ) / 2 := by
      have h3 : ((i : ℕ) : ℝ) + (j : ℕ) = (m : ℕ) + (N / 2 : ℕ) := by exact_mod_cast hmij
      rw [h3, Nat.cast_div (Nat.dvd_of_mod_eq_zero he) (by norm_num)]
      norm_num
    have hj : ((j : ℕ) : ℝ) = (m : ℕ) + (N : ℝ) / 2 - (i : ℕ) := by linarith
    rw [hj]
    field_simp
    ring

/-- A problem that the constructor makes in waveguide mode keeps the total power. -/
theorem C70_constructed {a : Args} {X : Crystal} {N : ℕ} {fp fs : Fin N → ℂ} (rand : ℕ → ℝ) (h : Call strF a X p s fp fs)
    (ho : ¬ (GridsOverlap cNmps p.cf p.tw N s.cf s.tw N ∨ GridsOverlap cNmps s.cf s.tw N (p.cf - s.cf) p.tw N))
    (he : N % 2 = 0) (htp : p.tw ≠ 0) (hts : s.tw = p.tw) {A : ℝ} (hw : a.wg = true) (hA : a.aeff = some A) (hA0 : 0 < A)
    (hn : ∀ wl, 0 < X.n none wl) :
    ∃ (q : Prob N) (c : Fin N) (p' s' i : Pulse) (y0 : Fin (3 * N) → ℂ),
      (dfgInit strF rand a X (p, s)).1 = .ok (some ⟨N, q, p', s', i, y0, c⟩) ∧
      ∀ fc z y d, (q.deriv fc z y).1 = .ok d →
        Spec.rate (fun _ => 1) (Ap y) (Ap d) + Spec.rate (fun _ => 1) (As y) (As d) +
          Spec.rate (fun _ => 1) (Ai y) (Ai d) = 0 := by
  obtain ⟨q, c, p', s', i, y0, hb, hm⟩ := C98_matched_iff rand h ho he htp (hts ▸ htp)
  refine ⟨q, c, p', s', i, y0, hb, fun fc z y d hd => C70_power he ?_ (hm.mpr hts.symm) hd⟩
  obtain ⟨q', c', p'', s'', i', fi, hb', -, -, -, -, -, -, -, -, -, -, -, -, -, -, hwg, -⟩ := dfgInit_built rand h ho
  rw [hb] at hb'
  have := Option.some.inj (Except.ok.inj hb')
  simp only [Built.mk.injEq, heq_eq_eq, true_and] at this
  obtain ⟨rfl, -⟩ := this
  obtain ⟨b1, b2, b3, b4⟩ := hwg hw
  refine ⟨⟨A, hA0, by rw [b1, hA]; rfl⟩, fun j => ?_⟩
  rw [b2, b3, b4]
  exact ⟨hn _, hn _, hn _⟩

/-- A pulse of two bins. -/
noncomputable def exPulse (cf tw : ℝ) : Pulse :=
  { Pulse.blank with n := 2, cf := cf, tw := tw, aw := some ⟨2, fun _ => 1⟩, ready := true }

noncomputable def exXtal : Crystal := ⟨"PP", 1, 1, fun _ => 1 / 4, fun _ _ => 2⟩

def exArgs : Args := ⟨true, 1, false, true, some 10⟩

theorem exPulse_ready (strF : ℝ → String) (cf tw : ℝ) : Ready strF (exPulse cf tw) 2 fun _ => 1 := by
  refine ⟨⟨⟨rfl, rfl, rfl⟩, ?_, ?_⟩, rfl, rfl⟩ <;> intro k hk <;> cases hk

theorem exCall (strF : ℝ → String) (t t' : ℝ) :
    Call strF exArgs exXtal (exPulse 300 t) (exPulse 200 t') (fun _ : Fin 2 => 1) (fun _ : Fin 2 => 1) where
  pump := exPulse_ready strF _ _
  sgnl := exPulse_ready strF _ _
  pos := by norm_num
  centre := by norm_num [exPulse]
  area _ := by simp [exArgs]
  guided _ := by simp [exXtal]
  poled _ := by
    obtain ⟨dom, hd⟩ := C68_terminates (pp := exXtal.pp) (ε := 1 / 4) (by norm_num) (fun _ => le_rfl) exXtal.len
    rw [hd]
    simp

theorem exNoOverlap {t t' : ℝ} (ht : 1 ≤ t) (ht' : 1 ≤ t') :
    ¬ (GridsOverlap cNmps (exPulse 300 t).cf (exPulse 300 t).tw 2 (exPulse 200 t').cf (exPulse 200 t').tw 2 ∨
      GridsOverlap cNmps (exPulse 200 t').cf (exPulse 200 t').tw 2 ((exPulse 300 t).cf - (exPulse 200 t').cf)
        (exPulse 300 t).tw 2) := by
  have hc : 0 < cNmps := by norm_num [cNmps, cMks]
  have hb : ∀ (cf : ℝ) {t : ℝ}, 1 ≤ t → ∀ i < 2, cf - 1 ≤ binFreq cf t 2 i ∧ binFreq cf t 2 i ≤ cf := by
    intro cf t ht i hi
    have h0 : 0 ≤ 1 / t := by positivity
    have h1 : 1 / t ≤ 1 := by rw [div_le_one (by linarith)]; exact ht
    interval_cases i
    · have e : binFreq cf t 2 0 = cf - 1 / t := by simp only [binFreq]; push_cast; ring
      rw [e]
      constructor <;> linarith
    · have e : binFreq cf t 2 1 = cf := by simp [binFreq]
      rw [e]
      constructor <;> linarith
  rintro (⟨i, hi, j, hj, h⟩ | ⟨i, hi, j, hj, h⟩)
  · have h1 := hb 300 ht i hi
    have h2 := hb 200 ht' j hj
    refine absurd h (not_lt.mpr ?_)
    show cNmps / binFreq 300 t 2 i ≤ cNmps / binFreq 200 t' 2 j
    have : 0 < binFreq 200 t' 2 j := by linarith
    have : binFreq 200 t' 2 j ≤ binFreq 300 t 2 i := by linarith
    gcongr
  · have h1 := hb 200 ht' i hi
    have h2 := hb (300 - 200) ht j hj
    refine absurd h (not_lt.mpr ?_)
    show cNmps / binFreq 200 t' 2 i ≤ cNmps / binFreq (300 - 200) t 2 j
    have : 0 < binFreq (300 - 200) t 2 j := by linarith
    have : binFreq (300 - 200) t 2 j ≤ binFreq 200 t' 2 i := by linarith
    gcongr

/-- C98 is refuted: a pump of 300 THz with a window of 10 ps and a signal of 200 THz with a window of 20 ps are accepted,
and the frequencies of bins that mix do not add up. -/
theorem C98_refuted (rand : ℕ → ℝ) : ∃ (q : Prob 2) (c : Fin 2) (p' s' i : Pulse) (y : Fin (3 * 2) → ℂ),
    (dfgInit strF rand exArgs exXtal (exPulse 300 10, exPulse 200 20)).1 = .ok (some ⟨2, q, p', s', i, y, c⟩) ∧ ¬ Matched q := by
  obtain ⟨q, c, p', s', i, y, h1, h2⟩ := C98_matched_iff (strF := strF) rand (exCall strF 10 20)
    (exNoOverlap (by norm_num) (by norm_num)) rfl (by norm_num [exPulse]) (by norm_num [exPulse])
  refine ⟨q, c, p', s', i, y, h1, fun h => ?_⟩
  have := h2.mp h
  norm_num [exPulse] at this

theorem C71_nonvacuous (rand : ℕ → ℝ) : ∃ b,
    (dfgInit strF rand exArgs exXtal (exPulse 300 10, exPulse 200 10)).1 = .ok (some b) ∧ b.idlr.cf = 100 := by
  obtain ⟨b, h, hc, hp, hs, -⟩ := (C71_outcome rand (exCall strF 10 10)).2 fun hc => by
    have := exNoOverlap (t := 10) (t' := 10) (by norm_num) (by norm_num)
    tauto
  refine ⟨b, h, ?_⟩
  rw [hc, hp, hs]
  norm_num [exPulse]

/-- A call that asks for birefringent phase matching in a waveguide. -/
theorem C71_bpm_nonvacuous (rand : ℕ → ℝ) :
    (dfgInit strF rand exArgs { exXtal with mode := "BPM" } (exPulse 300 10, exPulse 200 10)).1 = .error .AssertionError := by
  have h := exCall strF 10 10
  exact C71_guided_bpm rand ⟨h.pump, h.sgnl, h.pos, h.centre, h.area, fun hc => absurd hc (by decide)⟩
    (exNoOverlap (by norm_num) (by norm_num)) rfl rfl

end PyNLO.Dfg
