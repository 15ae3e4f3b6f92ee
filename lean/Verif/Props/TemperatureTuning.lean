import Verif.Props.CrystalTuning
import Verif.Props.CrystalInvert
import Mathlib.Analysis.Convex.Continuous
import Mathlib.Topology.Order.IntermediateValue

/-!
# C191: heating a crystal of given poling period moves signal and idler apart

The period stays, the temperature rises: the signal that `calculate_poling_period` assigns to that period moves to shorter wavelengths, the idler to longer ones.
-/

namespace PyNLO.Xtal

open Set

/-- the mismatch over `2π`, by wave number -/
noncomputable def dkOf (src : Source) (T p s : ℝ) : ℝ := kappa src T (1 / p) - kappa src T (1 / s) - kappa src T (1 / p - 1 / s)

theorem sell_n (src : Source) {T w : ℝ} (h1 : 20 ≤ T) (h2 : T ≤ 250) (h3 : 400 ≤ w) (h4 : w ≤ 5000) : (PPLN.load T src).n w = .val √(src.sell.nSq T w) := by
  cases src with
  | Deng =>
    obtain ⟨u1, -, u3, u4⟩ := deng_bounds h1 h2 h3 h4
    exact Sell.n_of (le_of_lt (lt_of_le_of_lt (by norm_num) u1)) u3 u4
  | Gayer_5pctMg =>
    obtain ⟨u1, -, u3, u4⟩ := gayer_bounds h1 h2 h3 h4
    exact Sell.n_of (le_of_lt (lt_of_le_of_lt (by norm_num) u1)) u3 u4

theorem kappa_sell (src : Source) (T w : ℝ) : kappa src T (1 / w) = 1 / w * √(src.sell.nSq T w) := by
  unfold kappa
  rw [one_div_one_div]

/-- heating raises the mismatch -/
theorem dk_heat (src : Source) {T T' p s : ℝ} (hT : 20 ≤ T) (h : T < T') (hT' : T' ≤ 250) (hp : 600 ≤ p) (hps : p < s) (hs : s ≤ 4500) (hi : 1 / p - 1 / s ≥ 1 / 4500) :
    dkOf src T p s < dkOf src T' p s := by
  have hp0 : 0 < p := by linarith
  have hs0 : 0 < s := by linarith
  obtain ⟨I, hI⟩ : ∃ I, 1 / I = 1 / p - 1 / s := ⟨1 / (1 / p - 1 / s), one_div_one_div _⟩
  have hinv : 1 / 4500 ≤ 1 / I := by linarith
  have hI0 : 0 < I := one_div_pos.mp (lt_of_lt_of_le (by norm_num) hinv)
  have hI4 : I ≤ 4500 := le_of_one_div_le_one_div (by norm_num) hinv
  have hpI : p < I := by
    apply lt_of_one_div_lt_one_div hI0
    have : 0 < 1 / s := one_div_pos.mpr hs0
    linarith
  have key : ∀ w, p < w → w ≤ 4500 → √(src.sell.nSq T' w) - √(src.sell.nSq T w) < √(src.sell.nSq T' p) - √(src.sell.nSq T p) := by
    intro w h1 h2
    obtain ⟨a, b, c, d, a1, b1, c1, d1, hlt⟩ := C190_thermal_dispersion src hT h hT' hp h1 h2
    rw [sell_n src (by linarith) (by linarith) (by linarith) (by linarith)] at a1 b1 c1 d1
    obtain rfl := NFlt.val.inj a1
    obtain rfl := NFlt.val.inj b1
    obtain rfl := NFlt.val.inj c1
    obtain rfl := NFlt.val.inj d1
    exact hlt
  have k1 := mul_lt_mul_of_pos_left (key s hps hs) (one_div_pos.mpr hs0)
  have k2 := mul_lt_mul_of_pos_left (key I hpI hI4) (one_div_pos.mpr hI0)
  unfold dkOf
  rw [← hI]
  simp only [kappa_sell]
  have e : 1 / p = 1 / s + 1 / I := by linarith
  rw [e]
  linarith

/-- C191: two crystals of the same poling period and length that differ in temperature: the signal of the warmer one is the shorter, its idler the longer. -/
theorem C191_tuning (src : Source) {T T' p s x Λ : ℝ} {len i j : Option ℝ} (hT : 20 ≤ T) (h : T < T') (hT' : T' ≤ 250) (hl : len ≠ some 0) (hp : 600 ≤ p)
    (hs : p < s) (hs' : s ≤ 2 * p) (hsi : idlerOf p s ≤ 1800) (hx : p < x) (hx' : x ≤ 2 * p) (hxi : idlerOf p x ≤ 1800)
    (h1 : polingPeriod (PPLN.load T src).n len (some p) (some s) none = .ok (.val Λ, i))
    (h2 : polingPeriod (PPLN.load T' src).n len (some p) (some x) none = .ok (.val Λ, j)) : x < s ∧ idlerOf p s < idlerOf p x := by
  obtain ⟨a1, a2, a3⟩ := ppln_period src hT (by linarith) hl (by linarith) hs hs' hsi h1
  obtain ⟨b1, b2, b3⟩ := ppln_period src (by linarith) hT' hl (by linarith) hx hx' hxi h2
  have hx0 : 0 < x := by linarith
  have hs0 : 0 < s := by linarith
  have hs4 : s ≤ 4500 := le_of_one_div_le_one_div (by norm_num) (le_trans (by norm_num) a1.1)
  have hd := dk_heat src hT h hT' hp hs hs4 (le_trans (by norm_num) a2.1)
  unfold dkOf at hd
  have half : 1 / p ≤ 2 * (1 / x) := by
    rw [mul_one_div, div_le_div_iff₀ (by linarith) hx0]
    linarith
  have hlt : 1 / s < 1 / x := by
    rcases lt_trichotomy (1 / x) (1 / s) with e | e | e
    · have := convex_pair (kappa_convex src (by linarith : 20 ≤ T') hT') a1 a2 half e
      linarith
    · rw [e] at b3
      linarith
    · exact e
  refine ⟨lt_of_one_div_lt_one_div hs0 hlt, ?_⟩
  exact one_div_lt_one_div_of_lt (lt_of_lt_of_le (by norm_num) b2.1) (by linarith)

/-- C191: so does the signal that `invert_dfg_qpm_to_signal_wl` finds, with an exact optimiser and the search kept at or below twice the pump wavelength. -/
theorem C191_invert (src : Source) {opt : (ℝ → Except PyErr NFlt) → ℝ → ℝ → Except PyErr ℝ} (ho : Exact opt) {T T' p s x y z Λ max : ℝ} {len i j : Option ℝ}
    (hT : 20 ≤ T) (h : T < T') (hT' : T' ≤ 250) (hl : len ≠ some 0) (hp : 600 ≤ p) (hm : max ≤ 2 * p) (hs : p * 1.001 ≤ s) (hs' : s ≤ max) (hsi : idlerOf p s ≤ 1800)
    (hx : p * 1.001 ≤ x) (hx' : x ≤ max) (hxi : idlerOf p x ≤ 1800) (h1 : polingPeriod (PPLN.load T src).n len (some p) (some s) none = .ok (.val Λ, i))
    (h2 : polingPeriod (PPLN.load T' src).n len (some p) (some x) none = .ok (.val Λ, j)) (hy : invertQpm opt (PPLN.load T src).n len p Λ max = .ok y)
    (hz : invertQpm opt (PPLN.load T' src).n len p Λ max = .ok z) (hyi : idlerOf p y ≤ 1800) (hzi : idlerOf p z ≤ 1800) : z < y := by
  have e1 := C126_round_trip_partial ho src hT (by linarith) hl (by linarith) hs hs' hm hsi h1 hy hyi
  have e2 := C126_round_trip_partial ho src (by linarith) hT' hl (by linarith) hx hx' hm hxi h2 hz hzi
  have lt : p < p * 1.001 := by
    norm_num
    linarith
  rw [e1, e2]
  exact (C191_tuning src hT h hT' hl hp (lt.trans_le hs) (hs'.trans hm) hsi (lt.trans_le hx) (hx'.trans hm) hxi h1 h2).1

theorem poling_of_dk {T p s : ℝ} (hT : 20 ≤ T) (hT' : T ≤ 250) (hp : 400 ≤ p) (hps : p < s) (hs : s ≤ 5000) (hi : idlerOf p s ≤ 5000) (hi' : 400 ≤ idlerOf p s)
    (hd : dkOf .Gayer_5pctMg T p s ≠ 0) : polingPeriod (PPLN.load T).n none (some p) (some s) none = .ok (.val (1e-9 / dkOf .Gayer_5pctMg T p s), some (idlerOf p s)) := by
  rw [poling_eq _ _ (by simp) _ (by linarith : (0 : ℝ) < p).ne' (by linarith : (0 : ℝ) < s).ne' hps.ne, ppln_k _ hT hT' hp (by linarith), ppln_k _ hT hT' (by linarith) hs,
    ppln_k _ hT hT' hi' hi]
  have e : 1 / idlerOf p s = 1 / p - 1 / s := by unfold idlerOf; rw [one_div_one_div]
  rw [e]
  simp only [NFlt.map₂, gratingDk]
  have e2 : 2 * Real.pi * kappa .Gayer_5pctMg T (1 / p) - 2 * Real.pi * kappa .Gayer_5pctMg T (1 / s) - 2 * Real.pi * kappa .Gayer_5pctMg T (1 / p - 1 / s) - 0 =
      2 * Real.pi * dkOf .Gayer_5pctMg T p s := by unfold dkOf; ring
  have hpi := Real.pi_pos
  rw [e2, if_neg (mul_ne_zero (by positivity) hd)]
  simp only [NFlt.map]
  congr 3
  field_simp

theorem nSq_continuousOn {w : ℝ} (h1 : 400 ≤ w) (h2 : w ≤ 5000) : ContinuousOn (fun T => gayer.nSq T w) (Icc 20 250) := by
  have ht : Continuous tempF := by unfold tempF; fun_prop
  have hb : ∀ T ∈ Icc (20 : ℝ) 250, (w * 1e-3) ^ 2 - (gayer.a3 + gayer.b3 * tempF T) ^ 2 ≠ 0 := fun T hT => by
    obtain ⟨-, -, u3, -⟩ := gayer_bounds hT.1 hT.2 h1 h2
    exact u3.ne'
  unfold Sell.nSq
  refine ContinuousOn.sub (ContinuousOn.add (ContinuousOn.add ?_ (ContinuousOn.div ?_ ?_ hb)) ?_) ?_ <;> apply Continuous.continuousOn <;> fun_prop

/-- beside C191: with the pump at 800 nm there is a pair of temperatures and a period for which every hypothesis is met. -/
theorem C191_nonvacuous : ∃ T' x Λ i j, 24.5 < T' ∧ T' ≤ 250 ∧ 800 < x ∧ x < 1600 ∧ idlerOf 800 1600 ≤ 1800 ∧ idlerOf 800 x ≤ 1800 ∧ 0 < Λ ∧
    polingPeriod (PPLN.load 24.5).n none (some 800) (some 1600) none = .ok (.val Λ, i) ∧ polingPeriod (PPLN.load T').n none (some 800) (some x) none = .ok (.val Λ, j) := by
  have hG : 0 < dkOf .Gayer_5pctMg 24.5 800 1600 := by
    obtain ⟨a, b, ha, hb, hab⟩ := C91_normal_dispersion .Gayer_5pctMg 24.5 800 1600 (by norm_num) (by norm_num) (by norm_num) (by norm_num) (by norm_num)
    rw [sell_n _ (by norm_num) (by norm_num) (by norm_num) (by norm_num)] at ha hb
    obtain rfl := NFlt.val.inj ha
    obtain rfl := NFlt.val.inj hb
    unfold dkOf
    rw [show (1 / 800 - 1 / 1600 : ℝ) = 1 / 1600 by norm_num]
    simp only [kappa_sell]
    linarith
  have h15 : dkOf .Gayer_5pctMg 24.5 800 1500 < dkOf .Gayer_5pctMg 24.5 800 1600 := by
    have := convex_pair (kappa_convex .Gayer_5pctMg (by norm_num : (20 : ℝ) ≤ 24.5) (by norm_num)) (a := 1 / 1500) (b := 1 / 1600) (P := 1 / 800)
      ⟨by norm_num, by norm_num⟩ ⟨by norm_num, by norm_num⟩ (by norm_num) (by norm_num)
    unfold dkOf
    linarith
  -- a temperature a little above
  have hc : ContinuousOn (fun T => dkOf .Gayer_5pctMg T 800 1500) (Icc 20 250) := by
    have e : (fun T => dkOf .Gayer_5pctMg T 800 1500) = fun T => 1 / 800 * √(gayer.nSq T 800) - 1 / 1500 * √(gayer.nSq T 1500) - 1 / (12000 / 7) * √(gayer.nSq T (12000 / 7)) := by
      funext T
      unfold dkOf
      rw [show (1 / 800 - 1 / 1500 : ℝ) = 1 / (12000 / 7) by norm_num]
      simp only [kappa_sell]
      rfl
    rw [e]
    have c1 := (nSq_continuousOn (w := 800) (by norm_num) (by norm_num)).sqrt
    have c2 := (nSq_continuousOn (w := 1500) (by norm_num) (by norm_num)).sqrt
    have c3 := (nSq_continuousOn (w := 12000 / 7) (by norm_num) (by norm_num)).sqrt
    exact ((continuousOn_const.mul c1).sub (continuousOn_const.mul c2)).sub (continuousOn_const.mul c3)
  obtain ⟨T', hT1, hT2, hT3⟩ : ∃ T', 24.5 < T' ∧ T' ≤ 250 ∧ dkOf .Gayer_5pctMg T' 800 1500 < dkOf .Gayer_5pctMg 24.5 800 1600 := by
    have hat : ContinuousAt (fun T => dkOf .Gayer_5pctMg T 800 1500) 24.5 := hc.continuousAt (Icc_mem_nhds (by norm_num) (by norm_num))
    have hev := hat.eventually_lt_const h15
    obtain ⟨ε, hε, hball⟩ := Metric.eventually_nhds_iff.mp hev
    refine ⟨24.5 + min (ε / 2) 1, by have := lt_min (half_pos hε) one_pos; linarith, ?_, hball ?_⟩
    · have := min_le_right (ε / 2) (1 : ℝ)
      have e : (24.5 : ℝ) + 1 ≤ 250 := by norm_num
      linarith
    · rw [Real.dist_eq, add_sub_cancel_left, abs_of_pos (lt_min (half_pos hε) one_pos)]
      exact lt_of_le_of_lt (min_le_left _ _) (half_lt_self hε)
  have hT0 : (20 : ℝ) ≤ T' := le_trans (by norm_num) hT1.le
  have hheat := dk_heat .Gayer_5pctMg (by norm_num) hT1 hT2 (by norm_num : (600 : ℝ) ≤ 800) (by norm_num : (800 : ℝ) < 1600) (by norm_num) (by norm_num)
  -- a wavelength between
  have hk : ContinuousOn (kappa .Gayer_5pctMg T') (Ioo (1 / 1800) (1 / 500)) := by
    have := (kappa_convex .Gayer_5pctMg hT0 hT2).convexOn.continuousOn_interior
    rwa [interior_Icc] at this
  have hF : ContinuousOn (fun σ => kappa .Gayer_5pctMg T' (1 / 800) - kappa .Gayer_5pctMg T' σ - kappa .Gayer_5pctMg T' (1 / 800 - σ)) (Icc (1 / 1600) (1 / 1500)) := by
    refine (continuousOn_const.sub (hk.mono ?_)).sub (hk.comp (by fun_prop) ?_)
    · intro σ hσ
      exact ⟨lt_of_lt_of_le (by norm_num) hσ.1, lt_of_le_of_lt hσ.2 (by norm_num)⟩
    · intro σ hσ
      obtain ⟨h1, h2⟩ := hσ
      constructor <;> norm_num at * <;> linarith
  obtain ⟨σ, ⟨s1, s2⟩, hσ⟩ := intermediate_value_Icc' (by norm_num) hF ⟨hT3.le, hheat.le⟩
  have hσ0 : 0 < σ := lt_of_lt_of_le (by norm_num) s1
  have hx : dkOf .Gayer_5pctMg T' 800 (1 / σ) = dkOf .Gayer_5pctMg 24.5 800 1600 := by
    unfold dkOf at hσ ⊢
    rw [one_div_one_div]
    exact hσ
  have hne : σ ≠ 1 / 1600 := by
    rintro rfl
    rw [one_div_one_div] at hx
    linarith
  have x1 : 1500 ≤ 1 / σ := by
    rw [le_div_iff₀ hσ0]
    norm_num at *
    linarith
  have x2 : 1 / σ < 1600 := by
    have := lt_of_le_of_ne s1 (Ne.symm hne)
    rw [div_lt_iff₀ hσ0]
    norm_num at *
    linarith
  have hi1 : 400 ≤ idlerOf 800 (1 / σ) ∧ idlerOf 800 (1 / σ) ≤ 1800 := by
    unfold idlerOf
    rw [one_div_one_div]
    have : 0 < 1 / 800 - σ := by norm_num at *; linarith
    rw [le_div_iff₀ this, div_le_iff₀ this]
    constructor <;> norm_num at * <;> linarith
  refine ⟨T', 1 / σ, 1e-9 / dkOf .Gayer_5pctMg 24.5 800 1600, some (idlerOf 800 1600), some (idlerOf 800 (1 / σ)), hT1, hT2, by linarith, x2, by norm_num [idlerOf], hi1.2, by positivity,
    poling_of_dk (by norm_num) (by norm_num) (by norm_num) (by norm_num) (by norm_num) (by norm_num [idlerOf]) (by norm_num [idlerOf]) hG.ne', ?_⟩
  rw [← hx]
  exact poling_of_dk hT0 hT2 (by norm_num) (by linarith) (by linarith) (by linarith [hi1.2]) hi1.1 (by rw [hx]; exact hG.ne')

open Classical in
/-- beside `C191_invert`: an exact optimiser that returns on both crystals of `C191_nonvacuous`, with every hypothesis met. -/
theorem C191_invert_nonvacuous : ∃ opt, Exact opt ∧ ∃ T' x y z Λ i j, 24.5 < T' ∧ T' ≤ 250 ∧ 800 * 1.001 ≤ x ∧ x ≤ 1600 ∧ idlerOf 800 1600 ≤ 1800 ∧ idlerOf 800 x ≤ 1800 ∧
    polingPeriod (PPLN.load 24.5).n none (some 800) (some 1600) none = .ok (.val Λ, i) ∧ polingPeriod (PPLN.load T').n none (some 800) (some x) none = .ok (.val Λ, j) ∧
    invertQpm opt (PPLN.load 24.5).n none 800 Λ 1600 = .ok y ∧ invertQpm opt (PPLN.load T').n none 800 Λ 1600 = .ok z ∧ idlerOf 800 y ≤ 1800 ∧ idlerOf 800 z ≤ 1800 ∧ z < y := by
  obtain ⟨T', x, Λ, i, j, t1, t2, x1, x2, i1, i2, -, h1, h2⟩ := C191_nonvacuous
  have x3 : 800 * 1.001 ≤ x := by
    unfold idlerOf at i2
    have hx0 : 0 < x := by linarith
    have hd : 0 < 1 / 800 - 1 / x := sub_pos.mpr (one_div_lt_one_div_of_lt (by norm_num) x1)
    rw [div_le_iff₀ hd] at i2
    have : 1 / x ≤ 1 / 1440 := by norm_num at *; linarith
    have := le_of_one_div_le_one_div hx0 this
    norm_num
    linarith
  let opt : (ℝ → Except PyErr NFlt) → ℝ → ℝ → Except PyErr ℝ := fun f a b =>
    if h : ∃ x, (a ≤ x ∧ x ≤ b ∧ ∀ y v, a ≤ y → y ≤ b → f y = .ok (.val v) → ∃ w, f x = .ok (.val w) ∧ w ≤ v) ∧ idlerOf 800 x ≤ 1800 then .ok h.choose
    else .error .ValueError
  have ho : Exact opt := by
    intro f a b x hx
    simp only [opt] at hx
    split_ifs at hx with h
    obtain rfl := Except.ok.inj hx
    exact h.choose_spec.1
  have run : ∀ (T s : ℝ) k, 800 * 1.001 ≤ s → s ≤ 1600 → idlerOf 800 s ≤ 1800 → polingPeriod (PPLN.load T).n none (some 800) (some s) none = .ok (.val Λ, k) →
      ∃ y, invertQpm opt (PPLN.load T).n none 800 Λ 1600 = .ok y ∧ idlerOf 800 y ≤ 1800 := by
    intro T s k s1 s2 s3 h
    have hex : ∃ x, (800 * 1.001 ≤ x ∧ x ≤ 1600 ∧ ∀ y v, 800 * 1.001 ≤ y → y ≤ 1600 → qpmError (PPLN.load T).n none 800 Λ y = .ok (.val v) →
        ∃ w, qpmError (PPLN.load T).n none 800 Λ x = .ok (.val w) ∧ w ≤ v) ∧ idlerOf 800 x ≤ 1800 := by
      refine ⟨s, ⟨s1, s2, fun y v _ _ h3 => ⟨0, ?_, ?_⟩⟩, s3⟩
      · unfold qpmError
        rw [h]
        simp [NFlt.map, pure, Except.pure]
      · unfold qpmError at h3
        rcases hr : polingPeriod (PPLN.load T).n none (some 800) (some y) none with _ | ⟨r, j⟩
        · rw [hr] at h3; simp at h3
        rw [hr] at h3
        cases r with
        | bad => simp [NFlt.map, pure, Except.pure] at h3
        | val Λ' =>
          have : (Λ' - Λ) ^ 2 = v := by simpa [NFlt.map, pure, Except.pure] using h3
          rw [← this]
          exact sq_nonneg _
    refine ⟨hex.choose, ?_, hex.choose_spec.2⟩
    unfold invertQpm
    rw [if_neg (by norm_num)]
    exact dif_pos hex
  obtain ⟨y, hy, yi⟩ := run 24.5 1600 i (by norm_num) le_rfl i1 h1
  obtain ⟨z, hz, zi⟩ := run T' x j x3 x2.le i2 h2
  exact ⟨opt, ho, T', x, y, z, Λ, i, j, t1, t2, x3, x2.le, i1, i2, h1, h2, hy, hz, yi, zi,
    C191_invert .Gayer_5pctMg ho (by norm_num) t1 t2 (by simp) (by norm_num) (by norm_num) (by norm_num) le_rfl i1 x3 x2.le i2 h1 h2 hy hz yi zi⟩

end PyNLO.Xtal
