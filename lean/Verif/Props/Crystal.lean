import Verif.Model.Crystal
import Mathlib.Algebra.Polynomial.Taylor
import Mathlib.Analysis.Calculus.Deriv.Polynomial
import Mathlib.Analysis.SpecialFunctions.Pow.Deriv
import Mathlib.Tactic.NormNum
import Mathlib.Tactic.Linarith
import Mathlib.Tactic.FieldSimp
import Mathlib.Tactic.Ring
import Mathlib.Tactic.IntervalCases

/-! # C61–C67, C88–C91: crystals -/

namespace PyNLO.Xtal

open Real

/-! ## C61: poling period -/

/-- Energy conservation between pump, signal and idler wavelengths. -/
def Energy (P S I : ℝ) : Prop := P ≠ 0 ∧ S ≠ 0 ∧ I ≠ 0 ∧ 1 / P = 1 / S + 1 / I

theorem inv_ok {x y : ℝ} (h : inv x = .ok y) : x ≠ 0 ∧ y = 1 / x := by
  unfold inv at h
  split_ifs at h with hx
  injection h with h
  exact ⟨hx, h.symm⟩

theorem inv_of_ne {x : ℝ} (h : x ≠ 0) : inv x = .ok (1 / x) := by unfold inv; rw [if_neg h]

theorem fill_ok {pump sgnl idlr : Option ℝ} {P S I : ℝ} {new : Option ℝ} (h : fill pump sgnl idlr = .ok (P, S, I, new)) :
    (pump = some P ∧ sgnl = some S ∧ idlr = some I ∧ new = none) ∨
    (pump = none ∧ sgnl = some S ∧ idlr = some I ∧ new = some P ∧ Energy P S I) ∨
    (pump = some P ∧ sgnl = none ∧ idlr = some I ∧ new = some S ∧ Energy P S I) ∨
    (pump = some P ∧ sgnl = some S ∧ idlr = none ∧ new = some I ∧ Energy P S I) := by
  rcases pump with _ | p
  · right; left
    rcases idlr with _ | i
    · simp [fill, invO] at h
    rcases hi : inv i with _ | a
    · simp [fill, invO, hi] at h
    rcases sgnl with _ | s
    · simp [fill, invO, hi] at h
    rcases hs : inv s with _ | b
    · simp [fill, invO, hi, hs] at h
    rcases hp : inv (a + b) with _ | c
    · simp [fill, invO, hi, hs, hp] at h
    simp only [fill, invO, hi, hs, hp, except_bind_ok] at h
    obtain ⟨rfl, rfl, rfl, rfl⟩ : c = P ∧ s = S ∧ i = I ∧ some c = new := by
      have := Except.ok.inj h
      simpa using this
    obtain ⟨i0, rfl⟩ := inv_ok hi
    obtain ⟨s0, rfl⟩ := inv_ok hs
    obtain ⟨p0, rfl⟩ := inv_ok hp
    exact ⟨rfl, rfl, rfl, rfl, one_div_ne_zero p0, s0, i0, by rw [one_div_one_div]; ring⟩
  · rcases sgnl with _ | s
    · right; right; left
      rcases hp : inv p with _ | a
      · simp [fill, hp] at h
      rcases idlr with _ | i
      · simp [fill, invO, hp] at h
      rcases hi : inv i with _ | b
      · simp [fill, invO, hi, hp] at h
      rcases hs : inv (a - b) with _ | c
      · simp [fill, invO, hi, hs, hp] at h
      simp only [fill, invO, hi, hs, hp, except_bind_ok] at h
      obtain ⟨rfl, rfl, rfl, rfl⟩ : p = P ∧ c = S ∧ i = I ∧ some c = new := by
        have := Except.ok.inj h
        simpa using this
      obtain ⟨i0, rfl⟩ := inv_ok hi
      obtain ⟨p0, rfl⟩ := inv_ok hp
      obtain ⟨s0, rfl⟩ := inv_ok hs
      exact ⟨rfl, rfl, rfl, rfl, p0, one_div_ne_zero s0, i0, by rw [one_div_one_div]; ring⟩
    · rcases idlr with _ | i
      · right; right; right
        rcases hp : inv p with _ | a
        · simp [fill, hp] at h
        rcases hs : inv s with _ | b
        · simp [fill, hs, hp] at h
        rcases hi : inv (a - b) with _ | c
        · simp [fill, hi, hs, hp] at h
        simp only [fill, hi, hs, hp, except_bind_ok] at h
        obtain ⟨rfl, rfl, rfl, rfl⟩ : p = P ∧ s = S ∧ c = I ∧ some c = new := by
          have := Except.ok.inj h
          simpa using this
        obtain ⟨s0, rfl⟩ := inv_ok hs
        obtain ⟨p0, rfl⟩ := inv_ok hp
        obtain ⟨i0, rfl⟩ := inv_ok hi
        exact ⟨rfl, rfl, rfl, rfl, p0, s0, one_div_ne_zero i0, by rw [one_div_one_div]; ring⟩
      · left
        have := Except.ok.inj h
        simp only [Prod.mk.injEq] at this
        obtain ⟨rfl, rfl, rfl, rfl⟩ := this
        exact ⟨rfl, rfl, rfl, rfl⟩

/-- Wave number in 1/m of light of wavelength `wl` nm in a medium of index `n`. -/
noncomputable def waveNumber (n wl : ℝ) : ℝ := 2 * π * n / (wl * 1e-9)

theorem kOf_val {n : ℝ → NFlt} {wl k : ℝ} (h : kOf n wl = .val k) :
    wl ≠ 0 ∧ ∃ x, n wl = .val x ∧ k = waveNumber x wl * 1e-9 := by
  unfold kOf at h
  split_ifs at h with hw
  cases hn : n wl with
  | bad => rw [hn] at h; simp [NFlt.map] at h
  | val x =>
    rw [hn] at h
    simp only [NFlt.map, NFlt.val.injEq] at h
    refine ⟨hw, x, rfl, ?_⟩
    rw [← h]; unfold waveNumber; field_simp

/-- C61: the period `L` satisfies `kp - ks - ki - 2*pi/L = delta_k_L/length`, or `= 0` without a length, where the
wavelengths are those given and the missing one, if any, conserves energy and is returned. -/
theorem C61_qpm (n : ℝ → NFlt) (len pump sgnl idlr : Option ℝ) (dkL Λ : ℝ) (new : Option ℝ)
    (h : polingPeriod n len pump sgnl idlr dkL = .ok (.val Λ, new)) :
    Λ ≠ 0 ∧ ∃ P S I np ns ni, n P = .val np ∧ n S = .val ns ∧ n I = .val ni ∧
      waveNumber np P - waveNumber ns S - waveNumber ni I - 2 * π / Λ = (match len with | none => 0 | some l => dkL / l) ∧
      ((pump = some P ∧ sgnl = some S ∧ idlr = some I ∧ new = none) ∨
       (pump = none ∧ sgnl = some S ∧ idlr = some I ∧ new = some P ∧ Energy P S I) ∨
       (pump = some P ∧ sgnl = none ∧ idlr = some I ∧ new = some S ∧ Energy P S I) ∨
       (pump = some P ∧ sgnl = some S ∧ idlr = none ∧ new = some I ∧ Energy P S I)) := by
  unfold polingPeriod at h
  rcases hf : fill pump sgnl idlr with _ | ⟨P, S, I, new'⟩
  · rw [hf] at h; simp at h
  rw [hf] at h
  simp only [except_bind_ok] at h
  have main : ∀ setPt : ℝ, ∀ new', (pure ((match NFlt.map₂ (fun x y => x - y - setPt)
        (NFlt.map₂ (fun x y => x - y) (kOf n P) (kOf n S)) (kOf n I) with
      | .bad => NFlt.bad
      | .val d => if d = 0 then .bad else .val (π / d * 1e-9)).map (· * 2), new') : Except PyErr (NFlt × Option ℝ))
        = .ok (.val Λ, new) → new' = new ∧ Λ ≠ 0 ∧ ∃ np ns ni, n P = .val np ∧ n S = .val ns ∧ n I = .val ni ∧
          waveNumber np P - waveNumber ns S - waveNumber ni I - 2 * π / Λ = setPt * 1e9 := by
    intro setPt new' h
    cases hp : kOf n P with
    | bad => rw [hp] at h; simp [NFlt.map₂, NFlt.map, pure, Except.pure] at h
    | val kp =>
    cases hs : kOf n S with
    | bad => rw [hp, hs] at h; simp [NFlt.map₂, NFlt.map, pure, Except.pure] at h
    | val ks =>
    cases hi : kOf n I with
    | bad => rw [hp, hs, hi] at h; simp [NFlt.map₂, NFlt.map, pure, Except.pure] at h
    | val ki =>
    rw [hp, hs, hi] at h
    simp only [NFlt.map₂] at h
    by_cases hd : kp - ks - ki - setPt = 0
    · rw [if_pos hd] at h; simp [NFlt.map, pure, Except.pure] at h
    rw [if_neg hd] at h
    simp only [NFlt.map, pure, Except.pure, Except.ok.injEq, Prod.mk.injEq, NFlt.val.injEq] at h
    obtain ⟨hΛ, hnew⟩ := h
    obtain ⟨-, np, hnp, hkp⟩ := kOf_val hp
    obtain ⟨-, ns, hns, hks⟩ := kOf_val hs
    obtain ⟨-, ni, hni, hki⟩ := kOf_val hi
    have hpi := pi_ne_zero
    have h2 : 2 * π / Λ = (kp - ks - ki - setPt) * 1e9 := by
      rw [← hΛ]; field_simp; norm_num
    refine ⟨hnew, ?_, np, ns, ni, hnp, hns, hni, ?_⟩
    · rw [← hΛ]; positivity
    · rw [h2, hkp, hks, hki]; ring
  rcases len with _ | l
  · obtain ⟨rfl, h1, np, ns, ni, h2, h3, h4, h5⟩ := main 0 new' h
    exact ⟨h1, P, S, I, np, ns, ni, h2, h3, h4, by rw [h5]; simp, fill_ok hf⟩
  · simp only at h
    by_cases hl : l * 1e9 = 0
    · rw [if_pos hl] at h; simp at h
    rw [if_neg hl] at h
    obtain ⟨rfl, h1, np, ns, ni, h2, h3, h4, h5⟩ := main (dkL / (l * 1e9)) new' h
    refine ⟨h1, P, S, I, np, ns, ni, h2, h3, h4, ?_, fill_ok hf⟩
    rw [h5]
    have hl' : l ≠ 0 := fun h => hl (by rw [h, zero_mul])
    field_simp

/-- C61: two missing wavelengths raise `TypeError` (the given one not being zero). -/
theorem C61_two_missing (n : ℝ → NFlt) (len : Option ℝ) (x dkL : ℝ) (hx : x ≠ 0) :
    polingPeriod n len none none (some x) dkL = .error .TypeError ∧
    polingPeriod n len none (some x) none dkL = .error .TypeError ∧
    polingPeriod n len (some x) none none dkL = .error .TypeError := by
  refine ⟨?_, ?_, ?_⟩ <;> simp [polingPeriod, fill, invO, inv_of_ne hx]

/-- C61: with a non-zero length and no energy mismatch that vanishes, the calculation does not raise. -/
theorem C61_returns (n : ℝ → NFlt) (len : Option ℝ) (hl : len ≠ some 0) (pump sgnl idlr dkL : ℝ)
    (hp : pump ≠ 0) (hs : sgnl ≠ 0) (hi : idlr ≠ 0) :
    (∃ r, polingPeriod n len (some pump) (some sgnl) (some idlr) dkL = .ok (r, none)) ∧
    (1 / pump ≠ 1 / sgnl → ∃ r, polingPeriod n len (some pump) (some sgnl) none dkL = .ok (r, some (1 / (1 / pump - 1 / sgnl)))) ∧
    (1 / pump ≠ 1 / idlr → ∃ r, polingPeriod n len (some pump) none (some idlr) dkL = .ok (r, some (1 / (1 / pump - 1 / idlr)))) ∧
    (1 / idlr + 1 / sgnl ≠ 0 → ∃ r, polingPeriod n len none (some sgnl) (some idlr) dkL = .ok (r, some (1 / (1 / idlr + 1 / sgnl)))) := by
  have key : ∀ P S I new, ∃ r, (do
      let (p, s, i, new) ← (Except.ok (P, S, I, new) : Except PyErr (ℝ × ℝ × ℝ × Option ℝ))
      let setPt ← match len with
        | none => pure 0
        | some l => if l * 1e9 = 0 then .error .ZeroDivisionError else pure (dkL / (l * 1e9))
      let deltak := NFlt.map₂ (fun x y => x - y - setPt) (NFlt.map₂ (fun x y => x - y) (kOf n p) (kOf n s)) (kOf n i)
      let period : NFlt := match deltak with
        | .bad => .bad
        | .val d => if d = 0 then .bad else .val (π / d * 1e-9)
      pure (period.map (· * 2), new) : Except PyErr (NFlt × Option ℝ)) = .ok (r, new) := by
    intro P S I new
    rcases len with _ | l
    · exact ⟨_, rfl⟩
    · have : ¬ (l * 1e9 = 0) := by
        intro h
        have : l = 0 := by
          rcases mul_eq_zero.mp h with h | h
          · exact h
          · norm_num at h
        exact hl (by rw [this])
      simp only [if_neg this]
      exact ⟨_, rfl⟩
  refine ⟨?_, fun h => ?_, fun h => ?_, fun h => ?_⟩
  · exact key pump sgnl idlr none
  · have hf : fill (some pump) (some sgnl) none = .ok (pump, sgnl, 1 / (1 / pump - 1 / sgnl), some (1 / (1 / pump - 1 / sgnl))) := by
      simp only [fill, inv_of_ne hp, inv_of_ne hs, except_bind_ok, inv_of_ne (sub_ne_zero.mpr h)]; rfl
    unfold polingPeriod
    rw [hf]
    exact key _ _ _ _
  · have hf : fill (some pump) none (some idlr) = .ok (pump, 1 / (1 / pump - 1 / idlr), idlr, some (1 / (1 / pump - 1 / idlr))) := by
      simp only [fill, invO, inv_of_ne hp, inv_of_ne hi, except_bind_ok, inv_of_ne (sub_ne_zero.mpr h)]; rfl
    unfold polingPeriod
    rw [hf]
    exact key _ _ _ _
  · have hf : fill none (some sgnl) (some idlr) = .ok (1 / (1 / idlr + 1 / sgnl), sgnl, idlr, some (1 / (1 / idlr + 1 / sgnl))) := by
      simp only [fill, invO, inv_of_ne hs, inv_of_ne hi, except_bind_ok, inv_of_ne h]; rfl
    unfold polingPeriod
    rw [hf]
    exact key _ _ _ _

/-- C61: a crystal of index `2 + 1000/wl`, pump 1000 nm, signal 2000 nm, idler missing: the period is 2 micrometres. -/
theorem C61_nonvacuous :
    polingPeriod (fun wl => .val (2 + 1000 / wl)) none (some 1000) (some 2000) none 3.2 = .ok (.val 2e-6, some 2000) := by
  have hf : fill (some 1000) (some 2000) none = .ok (1000, 2000, 2000, some 2000) := by
    simp only [fill, inv_of_ne (show (1000 : ℝ) ≠ 0 by norm_num), inv_of_ne (show (2000 : ℝ) ≠ 0 by norm_num), except_bind_ok]
    rw [inv_of_ne (by norm_num)]
    norm_num [pure, Except.pure]
  unfold polingPeriod
  rw [hf]
  have hpi := pi_ne_zero
  have hd : (2 + 1000 / 1000 : ℝ) * 2 * π / 1000 - (2 + 1000 / 2000) * 2 * π / 2000 - (2 + 1000 / 2000) * 2 * π / 2000 - 0
      = π / 1000 := by ring
  simp only [except_bind_ok, kOf, NFlt.map, NFlt.map₂, pure, Except.pure]
  rw [if_neg (by norm_num), if_neg (by norm_num)]
  simp only [NFlt.map₂]
  rw [hd, if_neg (by positivity)]
  simp only [NFlt.map]
  congr 3
  field_simp
  norm_num

/-! ## C63: the mixed index -/

theorem mix_pos {no ne t : ℝ} (ho : 0 < no) (he : 0 < ne) : 0 < sin t ^ 2 / ne ^ 2 + cos t ^ 2 / no ^ 2 := by
  have h := sin_sq_add_cos_sq t
  have h1 : 0 ≤ sin t ^ 2 / ne ^ 2 := by positivity
  have h2 : 0 ≤ cos t ^ 2 / no ^ 2 := by positivity
  rcases eq_or_ne (sin t) 0 with hs | hs
  · rw [hs] at h
    have : cos t ^ 2 = 1 := by linarith
    rw [this] at h2 ⊢
    have : 0 < 1 / no ^ 2 := by positivity
    linarith
  · have : 0 < sin t ^ 2 / ne ^ 2 := by positivity
    linarith

/-- C63: at angle 0 the mixed index is the ordinary one, at a right angle the extraordinary one. -/
theorem C63_ends (b : Biref) (wl no ne : ℝ) (ho : b.no wl = .val no) (he : b.ne wl = .val ne) (h1 : 0 < no) (h2 : 0 < ne) :
    (b.setTheta 0).n wl = .ok (.val no) ∧ (b.setTheta (π / 2)).n wl = .ok (.val ne) := by
  have hne : ¬ (no = 0 ∨ ne = 0) := by rintro (h | h) <;> linarith
  constructor
  · simp only [Biref.n, Biref.setTheta, if_true, ho, he, mixIndex, if_neg hne, sin_zero, cos_zero]
    congr 2
    rw [show (0 : ℝ) ^ 2 / ne ^ 2 + 1 ^ 2 / no ^ 2 = (1 / no) ^ 2 by field_simp; ring, sqrt_sq (by positivity), one_div_one_div]
  · simp only [Biref.n, Biref.setTheta, if_true, ho, he, mixIndex, if_neg hne, sin_pi_div_two, cos_pi_div_two]
    congr 2
    rw [show (1 : ℝ) ^ 2 / ne ^ 2 + 0 ^ 2 / no ^ 2 = (1 / ne) ^ 2 by field_simp; ring, sqrt_sq (by positivity), one_div_one_div]

/-- C63: at every angle the mixed index lies between the principal ones. -/
theorem C63_between (b : Biref) (wl no ne : ℝ) (ho : b.no wl = .val no) (he : b.ne wl = .val ne) (h1 : 0 < no) (h2 : 0 < ne) :
    ∃ m, b.n wl = .ok (.val m) ∧ min no ne ≤ m ∧ m ≤ max no ne := by
  have hne : ¬ (no = 0 ∨ ne = 0) := by rintro (h | h) <;> linarith
  refine ⟨1 / √(sin b.theta ^ 2 / ne ^ 2 + cos b.theta ^ 2 / no ^ 2), ?_, ?_, ?_⟩
  · simp only [Biref.n, if_true, ho, he, mixIndex, if_neg hne]
  · have hpos := mix_pos (t := b.theta) h1 h2
    have hmin : 0 < min no ne := lt_min h1 h2
    rw [le_one_div hmin (by positivity), sqrt_le_left (by positivity)]
    have hsc := sin_sq_add_cos_sq b.theta
    have e1 : 1 / ne ^ 2 ≤ (1 / min no ne) ^ 2 := by rw [div_pow, one_pow]; gcongr; exact min_le_right _ _
    have e2 : 1 / no ^ 2 ≤ (1 / min no ne) ^ 2 := by rw [div_pow, one_pow]; gcongr; exact min_le_left _ _
    calc sin b.theta ^ 2 / ne ^ 2 + cos b.theta ^ 2 / no ^ 2
        = sin b.theta ^ 2 * (1 / ne ^ 2) + cos b.theta ^ 2 * (1 / no ^ 2) := by ring
      _ ≤ sin b.theta ^ 2 * (1 / min no ne) ^ 2 + cos b.theta ^ 2 * (1 / min no ne) ^ 2 := by gcongr
      _ = (1 / min no ne) ^ 2 := by rw [← add_mul, hsc, one_mul]
  · have hpos := mix_pos (t := b.theta) h1 h2
    have hmax : 0 < max no ne := lt_max_of_lt_left h1
    rw [one_div_le (by positivity) hmax]
    apply le_sqrt_of_sq_le
    have hsc := sin_sq_add_cos_sq b.theta
    have e1 : (1 / max no ne) ^ 2 ≤ 1 / ne ^ 2 := by rw [div_pow, one_pow]; gcongr; exact le_max_right _ _
    have e2 : (1 / max no ne) ^ 2 ≤ 1 / no ^ 2 := by rw [div_pow, one_pow]; gcongr; exact le_max_left _ _
    calc (1 / max no ne) ^ 2 = sin b.theta ^ 2 * (1 / max no ne) ^ 2 + cos b.theta ^ 2 * (1 / max no ne) ^ 2 := by
          rw [← add_mul, hsc, one_mul]
      _ ≤ sin b.theta ^ 2 * (1 / ne ^ 2) + cos b.theta ^ 2 * (1 / no ^ 2) := by gcongr
      _ = sin b.theta ^ 2 / ne ^ 2 + cos b.theta ^ 2 / no ^ 2 := by ring

/-- C63: any other axis is a `ValueError`. -/
theorem C63_axis (b : Biref) (wl : ℝ) (axis : Option String) (h : axis ∉ [some "mix", some "o", some "e"]) :
    b.n wl axis = .error .ValueError := by
  simp only [List.mem_cons, List.not_mem_nil, or_false, not_or] at h
  simp only [Biref.n, if_neg h.1, if_neg h.2.1, if_neg h.2.2]

/-! ## C62: birefringent phase matching -/

/-- The pump, travelling at the crystal's angle, has the sum of the wave numbers of two ordinary waves. -/
def Matched (b : Biref) (P S I : ℝ) : Prop :=
  ∃ np ns ni, b.n P = .ok (.val np) ∧ b.no S = .val ns ∧ b.no I = .val ni ∧
    waveNumber np P = waveNumber ns S + waveNumber ni I

theorem mixIndex_eq_iff {no ne q t : ℝ} (h1 : 0 < no) (h2 : 0 < ne) (hq : 0 < q) :
    mixIndex t (.val no) (.val ne) = .val q ↔ cos t ^ 2 * (ne ^ 2 - no ^ 2) = ne ^ 2 * no ^ 2 / q ^ 2 - no ^ 2 := by
  have hne : ¬ (no = 0 ∨ ne = 0) := by rintro (h | h) <;> linarith
  have hpos := mix_pos (t := t) h1 h2
  have hsc := sin_sq_add_cos_sq t
  simp only [mixIndex, if_neg hne, NFlt.val.injEq]
  have e : sin t ^ 2 / ne ^ 2 + cos t ^ 2 / no ^ 2 = (no ^ 2 + cos t ^ 2 * (ne ^ 2 - no ^ 2)) / (ne ^ 2 * no ^ 2) := by
    rw [show sin t ^ 2 = 1 - cos t ^ 2 by linarith]; field_simp; ring
  constructor
  · intro h
    have : √(sin t ^ 2 / ne ^ 2 + cos t ^ 2 / no ^ 2) = 1 / q := by rw [← h, one_div_one_div]
    have h3 : sin t ^ 2 / ne ^ 2 + cos t ^ 2 / no ^ 2 = (1 / q) ^ 2 := by rw [← this, sq_sqrt hpos.le]
    rw [e] at h3
    rw [div_eq_iff (by positivity)] at h3
    have : no ^ 2 + cos t ^ 2 * (ne ^ 2 - no ^ 2) = ne ^ 2 * no ^ 2 / q ^ 2 := by rw [h3]; field_simp
    linarith
  · intro h
    rw [e, h, show (no ^ 2 + (ne ^ 2 * no ^ 2 / q ^ 2 - no ^ 2)) / (ne ^ 2 * no ^ 2) = (1 / q) ^ 2 by field_simp; ring,
      sqrt_sq (by positivity), one_div_one_div]

/-- The cosine is right: it is returned exactly when some angle gives the index asked for. -/
theorem phaseX_spec {no ne q : ℝ} (h1 : 0 < no) (h2 : 0 < ne) (hq : 0 < q) :
    (∀ x, phaseX q ne no = .val x → 0 ≤ x ∧ x ^ 2 * (ne ^ 2 - no ^ 2) = ne ^ 2 * no ^ 2 / q ^ 2 - no ^ 2) ∧
    (ne ≠ no → ∀ x, 0 ≤ x → x ^ 2 * (ne ^ 2 - no ^ 2) = ne ^ 2 * no ^ 2 / q ^ 2 - no ^ 2 → phaseX q ne no = .val x) := by
  unfold phaseX
  simp only
  set a := ne ^ 2 - no ^ 2 with ha
  set c := no ^ 2 - ne ^ 2 * no ^ 2 / q ^ 2 with hc
  have hD : (0 : ℝ) ^ 2 - 4 * a * c = -4 * a * c := by ring
  have hx : ∀ s : ℝ, 0 ≤ s → s ^ 2 = -4 * a * c → a ≠ 0 →
      (if (-0 + s) / (2 * a) < 0 then (-0 - s) / (2 * a) else (-0 + s) / (2 * a)) = s / (2 * |a|) := by
    intro s hs hs2 ha0
    rcases lt_or_gt_of_ne ha0 with h | h
    · rw [abs_of_neg h]
      rcases hs.eq_or_lt with h0 | h0
      · rw [← h0]; simp
      · rw [if_pos]
        · rw [show (-0 - s) / (2 * a) = s / (2 * -a) by rw [mul_neg, div_neg, neg_zero, zero_sub, neg_div]]
        · rw [neg_zero, zero_add]; exact div_neg_of_pos_of_neg h0 (by linarith)
    · rw [abs_of_pos h, if_neg, neg_zero, zero_add]
      rw [neg_zero, zero_add, not_lt]; positivity
  constructor
  · intro x h
    by_cases hb : q = 0 ∨ a = 0 ∨ 0 ^ 2 - 4 * a * c < 0
    · rw [if_pos hb] at h; simp at h
    · rw [if_neg hb] at h
      simp only [not_or, not_lt] at hb
      have hD0 : 0 ≤ -4 * a * c := by rw [← hD]; exact hb.2.2
      rw [NFlt.val.injEq, hD, hx _ (sqrt_nonneg _) (sq_sqrt hD0) hb.2.1] at h
      have hapos : 0 < |a| := abs_pos.mpr hb.2.1
      refine ⟨by rw [← h]; positivity, ?_⟩
      have h4 : x ^ 2 = -4 * a * c / (4 * a ^ 2) := by
        rw [← h, div_pow, sq_sqrt hD0, mul_pow, sq_abs]; norm_num
      rw [h4]
      have := hb.2.1
      rw [hc]
      field_simp
      ring
  · intro hne x hx0 hx2
    have ha0 : a ≠ 0 := by
      rw [ha]; intro h
      have : ne ^ 2 = no ^ 2 := by linarith
      exact hne ((sq_eq_sq₀ h2.le h1.le).mp this)
    have hcx : c = -(x ^ 2 * a) := by rw [hc]; linarith
    have hD2 : -4 * a * c = (2 * |a| * x) ^ 2 := by rw [hcx, mul_pow, mul_pow, sq_abs]; ring
    rw [if_neg]
    · rw [hD, hD2, sqrt_sq (by positivity), hx _ (by positivity) (by rw [hD2]) ha0]
      have hapos : 0 < |a| := abs_pos.mpr ha0
      congr 1
      field_simp
    · rw [hD, hD2]
      rintro (h | h | h)
      · linarith
      · exact ha0 h
      · nlinarith [sq_nonneg (2 * |a| * x)]

theorem phasematch_given (b : Biref) {P S I : ℝ} (hP : 0 < P) (hS : 0 < S) (hI : 0 < I) {ns ni no ne : ℝ}
    (hs : b.no S = .val ns) (hi : b.no I = .val ni) (ho : b.no P = .val no) (he : b.ne P = .val ne) (ret : Bool) :
    b.phasematch (some P) (some S) (some I) ret =
      match phaseX ((waveNumber ns S + waveNumber ni I) / waveNumber 1 P) ne no with
      | .bad => .error .AttributeError
      | .val x => if x < -1 ∨ 1 < x then .error .AttributeError else .ok (arccos x, none) := by
  unfold Biref.phasematch Biref.angle
  have hq : (ns * 2 * π / S + ni * 2 * π / I) / (2 * π / P) = (waveNumber ns S + waveNumber ni I) / waveNumber 1 P := by
    unfold waveNumber
    field_simp
  simp only [fill, except_bind_ok, pure, Except.pure, if_neg hP.ne', kOf, hs, hi, NFlt.map, if_neg hS.ne', if_neg hI.ne',
    NFlt.map₂, ho, he, hq]
  cases hx : phaseX ((waveNumber ns S + waveNumber ni I) / waveNumber 1 P) ne no with
  | bad => rfl
  | val x =>
    simp only
    by_cases hr : x < -1 ∨ 1 < x
    · simp only [if_pos hr]; rfl
    · simp only [if_neg hr, except_bind_ok]; cases ret <;> rfl

/-- C62: if `phasematch` returns an angle then, at that angle, the pump's wave number is the sum of those of signal
and idler. -/
theorem C62_matched (b : Biref) (P S I : ℝ) (hP : 0 < P) (hS : 0 < S) (hI : 0 < I) (ns ni no ne : ℝ)
    (hs : b.no S = .val ns) (hi : b.no I = .val ni) (ho : b.no P = .val no) (he : b.ne P = .val ne)
    (h1 : 0 < no) (h2 : 0 < ne) (h3 : 0 < ns) (h4 : 0 < ni) (ret : Bool) (θ : ℝ) (w : Option ℝ)
    (h : b.phasematch (some P) (some S) (some I) ret = .ok (θ, w)) :
    Matched (b.setTheta θ) P S I ∧ 0 ≤ θ ∧ θ ≤ π / 2 := by
  rw [phasematch_given b hP hS hI hs hi ho he ret] at h
  set q := (waveNumber ns S + waveNumber ni I) / waveNumber 1 P with hq
  have hw : ∀ {n wl : ℝ}, 0 < n → 0 < wl → 0 < waveNumber n wl := by
    intro n wl h1 h2; unfold waveNumber; positivity
  have hq0 : 0 < q := div_pos (add_pos (hw h3 hS) (hw h4 hI)) (hw one_pos hP)
  cases hx : phaseX q ne no with
  | bad => rw [hx] at h; simp at h
  | val x =>
    rw [hx] at h
    simp only at h
    by_cases hr : x < -1 ∨ 1 < x
    · rw [if_pos hr] at h; simp at h
    rw [if_neg hr] at h
    simp only [Except.ok.injEq, Prod.mk.injEq] at h
    obtain ⟨rfl, -⟩ := h
    simp only [not_or, not_lt] at hr
    obtain ⟨hx0, hx2⟩ := (phaseX_spec h1 h2 hq0).1 x hx
    refine ⟨⟨q, ns, ni, ?_, hs, hi, ?_⟩, arccos_nonneg x, arccos_le_pi_div_two.mpr hx0⟩
    · simp only [Biref.n, Biref.setTheta, if_true, ho, he]
      congr 1
      rw [mixIndex_eq_iff h1 h2 hq0, cos_arccos hr.1 hr.2, hx2]
    · have hP1 := (hw one_pos hP).ne'
      rw [show waveNumber q P = q * waveNumber 1 P by unfold waveNumber; ring, hq]
      field_simp

/-- C62: `AttributeError` is raised exactly when no angle phase matches (the crystal being birefringent at the
pump wavelength). -/
theorem C62_raises (b : Biref) (P S I : ℝ) (hP : 0 < P) (hS : 0 < S) (hI : 0 < I) (ns ni no ne : ℝ)
    (hs : b.no S = .val ns) (hi : b.no I = .val ni) (ho : b.no P = .val no) (he : b.ne P = .val ne)
    (h1 : 0 < no) (h2 : 0 < ne) (h3 : 0 < ns) (h4 : 0 < ni) (hne : ne ≠ no) (ret : Bool) :
    b.phasematch (some P) (some S) (some I) ret = .error .AttributeError ↔ ∀ θ, ¬ Matched (b.setTheta θ) P S I := by
  have hw : ∀ {n wl : ℝ}, 0 < n → 0 < wl → 0 < waveNumber n wl := by
    intro n wl h1 h2; unfold waveNumber; positivity
  constructor
  · rintro h θ ⟨np, ns', ni', e1, e2, e3, e4⟩
    rw [phasematch_given b hP hS hI hs hi ho he ret] at h
    set q := (waveNumber ns S + waveNumber ni I) / waveNumber 1 P with hq
    have hq0 : 0 < q := div_pos (add_pos (hw h3 hS) (hw h4 hI)) (hw one_pos hP)
    simp only [Biref.setTheta] at e2 e3
    rw [hs] at e2; rw [hi] at e3
    obtain rfl := NFlt.val.inj e2
    obtain rfl := NFlt.val.inj e3
    have hnp : np = q := by
      rw [hq, ← e4]
      have := (hw one_pos hP).ne'
      rw [eq_div_iff this]; unfold waveNumber; ring
    subst hnp
    simp only [Biref.n, Biref.setTheta, if_true, ho, he, Except.ok.injEq] at e1
    rw [mixIndex_eq_iff h1 h2 hq0] at e1
    have := (phaseX_spec h1 h2 hq0).2 hne |cos θ| (abs_nonneg _) (by rw [sq_abs]; exact e1)
    rw [this] at h
    simp only at h
    rw [if_neg] at h
    · simp at h
    · rw [not_or, not_lt, not_lt]
      exact ⟨by linarith [abs_nonneg (cos θ)], abs_cos_le_one θ⟩
  · intro h
    rcases hr : b.phasematch (some P) (some S) (some I) ret with e | ⟨θ, w⟩
    · rw [phasematch_given b hP hS hI hs hi ho he ret] at hr
      split at hr
      · rw [← hr]
      · split_ifs at hr
        rw [← hr]
    · exact absurd (C62_matched b P S I hP hS hI ns ni no ne hs hi ho he h1 h2 h3 h4 ret θ w hr).1 (h θ)

/-- C62: a missing wavelength is replaced by the one that conserves energy, and returned if asked for. -/
theorem C62_fill (b : Biref) (x y : ℝ) (hx : x ≠ 0) (hy : y ≠ 0) :
    (1 / x ≠ 1 / y → b.phasematch (some x) (some y) none true =
      (b.phasematch (some x) (some y) (some (1 / (1 / x - 1 / y)))).map fun r => (r.1, some (1 / (1 / x - 1 / y)))) ∧
    (1 / x ≠ 1 / y → b.phasematch (some x) none (some y) true =
      (b.phasematch (some x) (some (1 / (1 / x - 1 / y))) (some y)).map fun r => (r.1, some (1 / (1 / x - 1 / y)))) ∧
    (1 / y + 1 / x ≠ 0 → b.phasematch none (some x) (some y) true =
      (b.phasematch (some (1 / (1 / y + 1 / x))) (some x) (some y)).map fun r => (r.1, some (1 / (1 / y + 1 / x)))) := by
  have key : ∀ P S I new, ∀ f : Except PyErr (ℝ × ℝ × ℝ × Option ℝ), f = .ok (P, S, I, some new) →
      (do
        let (p, s, i, new) ← f
        let theta ← b.angle p s i
        pure (theta, if true then new else none) : Except PyErr (ℝ × Option ℝ)) =
      (b.phasematch (some P) (some S) (some I)).map fun r => (r.1, some new) := by
    rintro P S I new f rfl
    simp only [Biref.phasematch, fill, except_bind_ok, pure, Except.pure]
    cases b.angle P S I <;> rfl
  refine ⟨fun h => ?_, fun h => ?_, fun h => ?_⟩
  · refine key x y _ _ _ ?_
    simp only [fill, inv_of_ne hx, inv_of_ne hy, except_bind_ok, inv_of_ne (sub_ne_zero.mpr h)]; rfl
  · refine key x _ y _ _ ?_
    simp only [fill, invO, inv_of_ne hx, inv_of_ne hy, except_bind_ok, inv_of_ne (sub_ne_zero.mpr h)]; rfl
  · refine key _ x y _ _ ?_
    simp only [fill, invO, inv_of_ne hx, inv_of_ne hy, except_bind_ok, inv_of_ne h]; rfl

/-- C62: with principal indices 2 (ordinary) and 1 (extraordinary) at the pump and ordinary index `q` at twice the
pump wavelength, phase matching succeeds for `q = 3/2`. -/
theorem C62_nonvacuous :
    ∃ θ, (⟨fun wl => .val (if wl = 1 then 2 else 3 / 2), fun _ => .val 1, 0⟩ : Biref).phasematch (some 1) (some 2) (some 2) =
      .ok (θ, none) := by
  rw [phasematch_given _ (by norm_num) (by norm_num) (by norm_num) (ns := 3 / 2) (ni := 3 / 2) (no := 2) (ne := 1)
    (by norm_num) (by norm_num) (by norm_num) rfl false]
  have hq : (waveNumber (3 / 2) 2 + waveNumber (3 / 2) 2) / waveNumber 1 1 = 3 / 2 := by
    unfold waveNumber; have := pi_ne_zero; field_simp; norm_num
  rw [hq, (phaseX_spec (no := 2) (ne := 1) (q := 3 / 2) (by norm_num) (by norm_num) (by norm_num)).2 (by norm_num) (√(20 / 27))
    (sqrt_nonneg _) (by rw [sq_sqrt (by norm_num)]; norm_num)]
  simp only
  rw [if_neg]
  · exact ⟨_, rfl⟩
  · rw [not_or, not_lt, not_lt]
    exact ⟨by linarith [sqrt_nonneg (20 / 27 : ℝ)], by rw [sqrt_le_one]; norm_num⟩

end PyNLO.Xtal
