import Verif.Lemmas.WienerNlse

/-! # Uniqueness, continuation and a bound that keeps solutions alive -/

namespace PyNLO.Wiener

open Complex Set Filter Topology MeasureTheory

variable {b : ℤ → ℝ} {r : ℤ → ℂ} {K g γ a d : ℝ} {c : ℤ → ℝ → ℂ}

theorem Rapid.mono {J J' : Set ℝ} {f : ℤ → ℝ → ℂ} (hf : Rapid J f) (h : J' ⊆ J) : Rapid J' f := fun s =>
  let ⟨C, hC⟩ := hf s
  ⟨C, fun k z hz => hC k z (h hz)⟩

theorem CSol.mono (hc : CSol b r g γ a d c) {a' d' : ℝ} (h : Ioo a' d' ⊆ Ioo a d) : CSol b r g γ a' d' c :=
  ⟨hc.rapid.mono h, fun k z hz => hc.eq k z (h hz)⟩

open Classical in
/-- the sequence without its linear phases, as a point of `E` -/
noncomputable def point (b : ℤ → ℝ) (c : ℤ → ℝ → ℂ) (z : ℝ) : E := if h : Summable fun k => ‖c k z‖ then turn b (-z) (mk (fun k => c k z) h) else 0

theorem point_eq {z : ℝ} (h : Summable fun k => ‖c k z‖) : point b c z = turn b (-z) (mk (fun k => c k z) h) := dif_pos h

theorem norm_point {z : ℝ} (h : Summable fun k => ‖c k z‖) : ‖point b c z‖ = ∑' k, ‖c k z‖ := by
  rw [point_eq h, norm_turn, norm_eq]
  rfl

theorem turn_turn (z : ℝ) (x : E) : turn b z (turn b (-z) x) = x := by
  refine ext fun k => ?_
  simp only [turn_apply]
  linear_combination x k * phase_neg b z k

theorem phase_hasDerivAt (b : ℤ → ℝ) (z : ℝ) (k : ℤ) : HasDerivAt (fun z => phase b (-z) k) (-(I * b k) * phase b (-z) k) z := by
  have h3 : HasDerivAt (fun z : ℝ => ((b k * -z : ℝ) : ℂ) * I) (((b k * -1 : ℝ) : ℂ) * I) z :=
    (((hasDerivAt_id z).neg.const_mul (b k)).ofReal_comp).mul_const I
  have h4 := h3.cexp
  refine h4.congr_deriv ?_
  unfold phase
  push_cast
  ring

theorem rapid_cubic {J : Set ℝ} (hr : Tempered r) (hc : Rapid J c) : Rapid J fun k z => cubicSum r (fun k => c k z) k :=
  hc.fold ((hc.fold hc.star).mult hr)

theorem const_tempered (a : ℂ) : Tempered fun _ => a := ⟨‖a‖, 0, fun k => by simp⟩

/-- the sequence with one entry -/
noncomputable def sing (k : ℤ) : ℂ →L[ℝ] E := lp.singleContinuousLinearMap ℝ (fun _ : ℤ => ℂ) 1 k

theorem norm_sing (k : ℤ) (x : ℂ) : ‖sing k x‖ = ‖x‖ := by
  unfold sing
  rw [lp.singleContinuousLinearMap_apply]
  exact lp.norm_single (E := fun _ : ℤ => ℂ) zero_lt_one k x

theorem tsum_sing (x : E) : ∑' k, sing k (x k) = x := by
  unfold sing
  simp only [lp.singleContinuousLinearMap_apply]
  exact (lp.hasSum_single ENNReal.one_ne_top x).tsum_eq

/-- entrywise derivatives with rapid decay are derivatives in `E` -/
theorem hasDerivAt_entries {f f' : ℤ → ℝ → ℂ} {α : ℝ → E} {α' : E} (hf : Rapid (Ioo a d) f) (hf' : Rapid (Ioo a d) f')
    (h : ∀ k, ∀ z ∈ Ioo a d, HasDerivAt (f k) (f' k z) z) {z : ℝ} (hz : z ∈ Ioo a d) (hα : ∀ z ∈ Ioo a d, ∀ k, α z k = f k z) (hα' : ∀ k, α' k = f' k z) :
    HasDerivAt α α' z := by
  obtain ⟨C, -, hC⟩ := hf'.bound 2
  have h1 := hasDerivAt_tsum_of_isPreconnected (g := fun k z => sing k (f k z)) (g' := fun k z => sing k (f' k z))
    (summable_br.mul_left C) isOpen_Ioo isPreconnected_Ioo (fun k z hz => (sing k).hasFDerivAt.comp_hasDerivAt z (h k z hz))
    (fun k z hz => by rw [norm_sing]; exact hC k z hz) hz (Summable.of_norm (by simp only [norm_sing]; exact hf.summable hz)) hz
  have e1 : ∀ z ∈ Ioo a d, α z = ∑' k, sing k (f k z) := by
    intro z hz
    rw [← tsum_sing (α z)]
    exact tsum_congr fun k => by rw [hα z hz]
  have e2 : ∑' k, sing k (f' k z) = α' := by
    rw [← tsum_sing α']
    exact tsum_congr fun k => by rw [hα']
  rw [e2] at h1
  exact h1.congr_of_eventuallyEq (Filter.eventually_of_mem (Ioo_mem_nhds hz.1 hz.2) e1)

/-- the coefficients move in `E` -/
theorem CSol.point_hasDerivAt (hr : ∀ k, ‖r k‖ ≤ K) (hc : CSol b r g γ a d c) {z : ℝ} (hz : z ∈ Ioo a d) :
    HasDerivAt (point b c) (field one hr b g γ z (point b c z)) z := by
  have hsum : ∀ {z}, z ∈ Ioo a d → Summable fun k => ‖c k z‖ := fun hz => hc.rapid.summable hz
  have hD : Rapid (Ioo a d) fun k z => ((g / 2 : ℝ) : ℂ) * c k z + I * γ * cubicSum r (fun k => c k z) k :=
    (hc.rapid.mult (const_tempered _)).add ((rapid_cubic (bounded_tempered hr) hc.rapid).mult (const_tempered _))
  have hph : ∀ {f : ℤ → ℝ → ℂ}, Rapid (Ioo a d) f → Rapid (Ioo a d) fun k z => phase b (-z) k * f k z := by
    intro f hf s
    obtain ⟨C, hC⟩ := hf s
    exact ⟨C, fun k z hz => by rw [norm_mul, norm_phase, one_mul]; exact hC k z hz⟩
  refine hasDerivAt_entries (hph hc.rapid) (hph hD) (fun k z hz => ?_) hz (fun z hz k => ?_) (fun k => ?_)
  · refine ((phase_hasDerivAt b z k).fun_mul (hc.eq k z hz)).congr_deriv ?_
    ring
  · rw [point_eq (hsum hz)]
    rfl
  · unfold field
    simp only [lp.coeFn_add, lp.coeFn_smul, Pi.add_apply, Pi.smul_apply, smul_eq_mul, turn_apply]
    rw [point_eq (hsum hz), turn_turn, cubic_one]
    simp only [turn_apply, mk_apply]
    ring

theorem CSol.bounded (hc : CSol b r g γ a d c) : ∃ M, ∀ z ∈ Ioo a d, ‖point b c z‖ ≤ M := by
  obtain ⟨C, -, hC⟩ := hc.rapid.bound 2
  refine ⟨∑' k, C * (1 / br k ^ 2), fun z hz => ?_⟩
  rw [norm_point (hc.rapid.summable hz)]
  exact (hc.rapid.summable hz).tsum_le_tsum (fun k => hC k z hz) (summable_br.mul_left C)

/-- solutions that agree once agree always -/
theorem CSol.unique (hr : ∀ k, ‖r k‖ ≤ K) {c' : ℤ → ℝ → ℂ} (hc : CSol b r g γ a d c) (hc' : CSol b r g γ a d c') {z0 : ℝ} (hz0 : z0 ∈ Ioo a d)
    (h : ∀ k, c k z0 = c' k z0) : ∀ z ∈ Ioo a d, ∀ k, c k z = c' k z := by
  obtain ⟨M, hM⟩ := hc.bounded
  obtain ⟨M', hM'⟩ := hc'.bounded
  have h0 : point b c z0 = point b c' z0 := by
    have : (fun k => c k z0) = fun k => c' k z0 := funext h
    rw [point_eq (hc.rapid.summable hz0), point_eq (hc'.rapid.summable hz0)]
    congr 2
  have hu := ODE_solution_unique_of_mem_Ioo (v := field one hr b g γ) (s := fun _ => {x | ‖x‖ ≤ max M M'})
    (fun z _ => field_lipschitzOn one hr b g γ z (max M M')) hz0 (fun z hz => ⟨hc.point_hasDerivAt hr hz, (hM z hz).trans (le_max_left _ _)⟩)
    (fun z hz => ⟨hc'.point_hasDerivAt hr hz, (hM' z hz).trans (le_max_right _ _)⟩) h0
  intro z hz k
  have h1 := hu hz
  rw [point_eq (hc.rapid.summable hz), point_eq (hc'.rapid.summable hz)] at h1
  have h2 := congrArg (fun x => turn b z x k) h1
  simpa only [turn_turn, mk_apply] using h2

theorem CSol.shift (hc : CSol b r g γ a d c) (s : ℝ) : CSol b r g γ (a + s) (d + s) fun k z => c k (z - s) := by
  have hm : ∀ z ∈ Ioo (a + s) (d + s), z - s ∈ Ioo a d := fun z hz => ⟨by linarith [hz.1], by linarith [hz.2]⟩
  refine ⟨fun n => ?_, fun k z hz => (hc.eq k (z - s) (hm z hz)).comp_sub_const z s⟩
  obtain ⟨C, hC⟩ := hc.rapid n
  exact ⟨C, fun k z hz => hC k (z - s) (hm z hz)⟩

theorem CSol.summable_pow (hc : CSol b r g γ a d c) {z : ℝ} (hz : z ∈ Ioo a d) (s : ℕ) : Summable fun k : ℤ => (1 + |(k : ℝ)|) ^ s * ‖c k z‖ := by
  obtain ⟨C, hC⟩ := hc.rapid (s + 2)
  refine (summable_br.mul_left C).of_nonneg_of_le (fun k => by positivity) fun k => ?_
  have hb := br_pos k
  rw [mul_one_div, le_div_iff₀ (by positivity)]
  refine le_trans (le_of_eq ?_) (hC k z hz)
  unfold br
  rw [pow_add]
  ring

/-- a solution goes on beyond a point by a distance that depends on its size there -/
theorem CSol.extend (hr : ∀ k, ‖r k‖ ≤ K) (hc : CSol b r g γ a d c) {z0 ℓ M : ℝ} (hz0 : z0 ∈ Ioo a d) (hℓ : 0 < ℓ) (hM : ∑' k, ‖c k z0‖ ≤ M)
    (hs : ℓ * (|g| + 8 * |γ| * K * M ^ 2) < 1) : ∃ c', CSol b r g γ a (z0 + ℓ) c' ∧ ∀ z ≤ z0, ∀ k, c' k z = c k z := by
  have hK := K_nonneg hr
  have hS0 : 0 ≤ ∑' k, ‖c k z0‖ := tsum_nonneg fun _ => norm_nonneg _
  have hs' : ℓ * (|g| + 8 * |γ| * K * (∑' k, ‖c k z0‖) ^ 2) < 1 := by
    refine lt_of_le_of_lt ?_ hs
    gcongr
  obtain ⟨L1, hL1, e, he, he0⟩ := exists_csol b hr g γ (c0 := fun k => c k z0) (hc.summable_pow hz0) hℓ.le hs'
  have he2 := he.shift z0
  have hagree : ∀ z ∈ Ioo (max a (z0 - L1)) (min d (z0 + L1)), ∀ k, c k z = e k (z - z0) := by
    refine CSol.unique hr (hc.mono (Ioo_subset_Ioo (le_max_left _ _) (min_le_left _ _))) (he2.mono (Ioo_subset_Ioo ?_ ?_))
      (z0 := z0) ⟨max_lt hz0.1 (by linarith), lt_min hz0.2 (by linarith)⟩ fun k => ?_
    · exact le_trans (by linarith) (le_max_right _ _)
    · exact (min_le_right _ _).trans (by linarith)
    · simp only [sub_self, he0]
  have hnear : Ioo (max a (z0 - L1)) (min d (z0 + L1)) ∈ 𝓝 z0 := Ioo_mem_nhds (max_lt hz0.1 (by linarith)) (lt_min hz0.2 (by linarith))
  refine ⟨fun k z => if z ≤ z0 then c k z else e k (z - z0), ⟨fun s => ?_, fun k z hz => ?_⟩, fun z hz k => if_pos hz⟩
  · obtain ⟨C, hC⟩ := hc.rapid s
    obtain ⟨C', hC'⟩ := he2.rapid s
    refine ⟨max C C', fun k z hz => ?_⟩
    by_cases h : z ≤ z0
    · simp only [if_pos h]
      exact (hC k z ⟨hz.1, lt_of_le_of_lt h hz0.2⟩).trans (le_max_left _ _)
    · simp only [if_neg h]
      exact (hC' k z ⟨by linarith, by linarith [hz.2]⟩).trans (le_max_right _ _)
  · rcases lt_trichotomy z z0 with h | h | h
    · have hd := hc.eq k z ⟨hz.1, h.trans hz0.2⟩
      have hev : (fun z => if z ≤ z0 then c k z else e k (z - z0)) =ᶠ[𝓝 z] c k := by
        filter_upwards [Iio_mem_nhds h] with y hy
        exact if_pos (le_of_lt hy)
      refine (hd.congr_of_eventuallyEq hev).congr_deriv ?_
      simp only [if_pos h.le]
    · subst h
      have hd := hc.eq k z hz0
      have hev : (fun y => if y ≤ z then c k y else e k (y - z)) =ᶠ[𝓝 z] c k := by
        filter_upwards [hnear] with y hy
        split_ifs with h
        · rfl
        · exact (hagree y hy k).symm
      refine (hd.congr_of_eventuallyEq hev).congr_deriv ?_
      simp only [le_refl, if_true]
    · have hd := he2.eq k z ⟨by linarith, by linarith [hz.2]⟩
      have hev : (fun z => if z ≤ z0 then c k z else e k (z - z0)) =ᶠ[𝓝 z] fun z => e k (z - z0) := by
        filter_upwards [Ioi_mem_nhds h] with y hy
        exact if_neg (not_le.2 hy)
      refine (hd.congr_of_eventuallyEq hev).congr_deriv ?_
      simp only [if_neg (not_le.2 h)]

/-- a solution whose size is bounded in advance exists over the whole distance -/
theorem exists_of_bound (hr : ∀ k, ‖r k‖ ≤ K) {c0 : ℤ → ℂ} (hc0 : ∀ s : ℕ, Summable fun k : ℤ => (1 + |(k : ℝ)|) ^ s * ‖c0 k‖) {L M : ℝ}
    (hb : ∀ a d c, a < 0 → CSol b r g γ a d c → (∀ k, c k 0 = c0 k) → ∀ z, 0 ≤ z → z < d → z ≤ L → ∑' k, ‖c k z‖ ≤ M) :
    ∃ a d c, a < 0 ∧ L < d ∧ CSol b r g γ a d c ∧ ∀ k, c k 0 = c0 k := by
  have hK := K_nonneg hr
  let M' := max M (∑' k, ‖c0 k‖)
  obtain ⟨ℓ, hℓ, hs⟩ : ∃ ℓ : ℝ, 0 < ℓ ∧ ℓ * (|g| + 8 * |γ| * K * M' ^ 2) < 1 := by
    have hp : 0 ≤ |g| + 8 * |γ| * K * M' ^ 2 := by positivity
    refine ⟨1 / (|g| + 8 * |γ| * K * M' ^ 2 + 1), by positivity, ?_⟩
    rw [one_div, inv_mul_lt_iff₀ (by positivity)]
    linarith
  have hS0 : 0 ≤ ∑' k, ‖c0 k‖ := tsum_nonneg fun _ => norm_nonneg _
  have step : ∀ n : ℕ, ∃ a d c, a < 0 ∧ (L < d ∨ ℓ + n * (ℓ / 2) ≤ d) ∧ CSol b r g γ a d c ∧ ∀ k, c k 0 = c0 k := by
    intro n
    induction n with
    | zero =>
      obtain ⟨L1, h1, c, hc, h0⟩ := exists_csol b hr g γ hc0 hℓ.le (by
        refine lt_of_le_of_lt ?_ hs
        have := le_max_right M (∑' k, ‖c0 k‖)
        gcongr)
      exact ⟨-L1, L1, c, by linarith, Or.inr (by simp; linarith), hc, h0⟩
    | succ n ih =>
      obtain ⟨a, d, c, ha, h | h, hc, h0⟩ := ih
      · exact ⟨a, d, c, ha, Or.inl h, hc, h0⟩
      · rcases lt_or_ge L d with hLd | hLd
        · exact ⟨a, d, c, ha, Or.inl hLd, hc, h0⟩
        · have hn : (0 : ℝ) ≤ n * (ℓ / 2) := by positivity
          have hz0 : d - ℓ / 2 ∈ Ioo a d := ⟨by linarith, by linarith⟩
          obtain ⟨c', hc', h1⟩ := hc.extend hr hz0 hℓ ((hb a d c ha hc h0 (d - ℓ / 2) (by linarith) (by linarith) (by linarith)).trans (le_max_left _ _)) hs
          refine ⟨a, _, c', ha, Or.inr ?_, hc', fun k => by rw [h1 0 (by linarith), h0]⟩
          push_cast
          linarith
  obtain ⟨n, hn⟩ := exists_nat_gt (L / (ℓ / 2))
  obtain ⟨a, d, c, ha, h, hc, h0⟩ := step n
  refine ⟨a, d, c, ha, ?_, hc, h0⟩
  rcases h with h | h
  · exact h
  · rw [div_lt_iff₀ (by positivity)] at hn
    linarith

end PyNLO.Wiener
