import Verif.Model.DfgPolingFloat
import Verif.Lemmas.Double
import Verif.Props.DfgPoling

/-!
# C171: the poling domains in double precision
-/

namespace PyNLO.Dfg

open Double

/-- C171: without rounding the model is that of C68. -/
theorem C171_model : precomputePolingF id = precomputePoling := rfl

/-- start of the `k`-th period in double precision -/
noncomputable def wallF (pp : ℝ → ℝ) : ℕ → ℝ
  | 0 => 0
  | k + 1 => nearest (wallF pp k + pp (wallF pp k))

/-- where the inverted half of the `k`-th period begins in double precision -/
noncomputable def midF (pp : ℝ → ℝ) (k : ℕ) : ℝ := nearest (wallF pp k + nearest (pp (wallF pp k) * (1 / 2)))

variable {pp : ℝ → ℝ} {len : ℝ}

theorem precomputePolingF_inv (hf : ∀ z, IsFloat (pp z)) {dom : List ℝ × List ℝ} (h : precomputePolingF nearest pp len = some dom) :
    ∃ K, (∀ k < K, wallF pp k < len) ∧ len ≤ wallF pp K ∧
      dom.1 = (List.range K).map (midF pp) ∧ dom.2 = (List.range K).map (fun k => wallF pp (k + 1)) := by
  refine runLoop_invariant (body := polBodyF nearest pp len) (s := ⟨0, [], []⟩) (Q := fun dom : List ℝ × List ℝ =>
      ∃ K, (∀ k < K, wallF pp k < len) ∧ len ≤ wallF pp K ∧
      dom.1 = (List.range K).map (midF pp) ∧
      dom.2 = (List.range K).map (fun k => wallF pp (k + 1))) (I := fun s : PolSt => ∃ K, (∀ k < K, wallF pp k < len) ∧ s.z = wallF pp K ∧
      s.lb = (List.range K).map (midF pp) ∧
      s.ub = (List.range K).map (fun k => wallF pp (k + 1))) ?_ ?_ ⟨0, by simp, rfl, rfl, rfl⟩ h
  · rintro s s' ⟨K, h1, hz, hl, hu⟩ hb
    unfold polBodyF at hb
    split_ifs at hb with hlt
    rw [← Sum.inl.inj hb]
    refine ⟨K + 1, fun k hk => ?_, ?_, ?_, ?_⟩
    · rcases Nat.lt_succ_iff_lt_or_eq.mp hk with hk | rfl
      · exact h1 k hk
      · rw [← hz]; exact hlt
    · simp [wallF, hz]
    · simp only [hl, hz, List.range_succ, List.map_append, List.map_cons, List.map_nil, midF]
    · simp [hu, hz, List.range_succ, wallF, nearest_exact (hf _)]
  · rintro s r ⟨K, h1, hz, hl, hu⟩ hb
    unfold polBodyF at hb
    split_ifs at hb with hlt
    rw [← Sum.inr.inj hb]
    exact ⟨K, h1, by rw [← hz]; exact not_lt.mp hlt, hl, hu⟩

open Classical in
/-- C171: the sign in double precision is -1 exactly strictly inside the second half of a period that begins in the crystal, the walls being the rounded ones. -/
theorem C171_domains (hf : ∀ z, IsFloat (pp z)) {dom : List ℝ × List ℝ} (h : precomputePolingF nearest pp len = some dom) (x : ℝ) :
    poling dom x = if ∃ k, (∀ m ≤ k, wallF pp m < len) ∧ midF pp k < x ∧ x < wallF pp (k + 1) then -1 else 1 := by
  obtain ⟨K, h1, h2, hl, hu⟩ := precomputePolingF_inv hf h
  rw [poling, hl, hu]
  refine if_congr ?_ rfl rfl
  rw [List.zip_map']
  simp only [List.mem_map, List.mem_range]
  constructor
  · rintro ⟨d, ⟨k, hk, rfl⟩, hx⟩
    exact ⟨k, fun m hm => h1 m (by omega), hx⟩
  · rintro ⟨k, hk, hx⟩
    refine ⟨_, ⟨k, ?_, rfl⟩, hx⟩
    by_contra hc
    exact absurd (hk K (by omega)) (not_lt.mpr h2)

/-- a period that is not too short against the position is at least half kept by the rounding -/
theorem add_half {z p q len : ℝ} (hp : 2 ^ (-1000 : ℤ) ≤ p) (hz0 : 0 ≤ z) (hz : z < len) (hlen : len ≤ 2 ^ 51 * p) (hq : p ≤ q) : z + p / 2 ≤ nearest (z + q) := by
  have hp0 : 0 < p := lt_of_lt_of_le (by positivity) hp
  have h1 := nearest_near (x := z + p) (D := z + p) (by rw [abs_of_nonneg (by linarith)]) (by linarith)
  have h2 := (abs_le.1 h1).1
  have h3 : (z + p) * (2 : ℝ) ^ (-53 : ℤ) ≤ p / 2 := by
    calc (z + p) * (2 : ℝ) ^ (-53 : ℤ) ≤ (2 ^ 52 * p) * 2 ^ (-53 : ℤ) := by
          gcongr; nlinarith
      _ = p / 2 := by norm_num; ring
  have h4 := nearest_mono (show z + p ≤ z + q by linarith)
  generalize (2 : ℝ) ^ (-53 : ℤ) = c at *
  linarith

/-- C171: in double precision `precompute_poling` returns for every period function that stays above `p0`, for crystals of up to `2^51` times that length, and there
are at most `2·len/p0 + 1` domains. -/
theorem C171_returns {p0 : ℝ} (hp0 : 2 ^ (-1000 : ℤ) ≤ p0) (hpp : ∀ z, 0 ≤ z → z < len → p0 ≤ pp z) (hf : ∀ z, IsFloat (pp z)) (hlen : len ≤ 2 ^ 51 * p0) :
    ∃ dom, precomputePolingF nearest pp len = some dom ∧ ((dom.1.length : ℝ) ≤ 2 * len / p0 + 1 ∨ len ≤ 0) := by
  have hpos : 0 < p0 := lt_of_lt_of_le (by positivity) hp0
  have hret : ∃ dom, precomputePolingF nearest pp len = some dom := by
    refine runLoop_terminates (I := fun s : PolSt => 0 ≤ s.z) (fun s => ⌈(len - s.z) / (p0 / 2)⌉₊) ?_ le_rfl
    intro s s' hI hb
    unfold polBodyF at hb
    split_ifs at hb with hlt
    rw [← Sum.inl.inj hb]
    have ha := add_half hp0 hI hlt hlen (hpp s.z hI hlt)
    refine ⟨show 0 ≤ nearest (s.z + pp s.z) by linarith, ?_⟩
    show ⌈(len - nearest (s.z + pp s.z)) / (p0 / 2)⌉₊ < ⌈(len - s.z) / (p0 / 2)⌉₊
    have h0 : 0 < (len - s.z) / (p0 / 2) := div_pos (by linarith) (by linarith)
    have h1 : (len - nearest (s.z + pp s.z)) / (p0 / 2) ≤ (len - s.z) / (p0 / 2) - 1 := by
      rw [div_sub_one (by linarith : p0 / 2 ≠ 0)]
      exact div_le_div_of_nonneg_right (by linarith) (by linarith)
    rw [Nat.lt_ceil]
    rcases lt_or_ge ((len - nearest (s.z + pp s.z)) / (p0 / 2)) 0 with hn | hn
    · rw [Nat.ceil_eq_zero.2 hn.le]; simpa using h0
    · have := Nat.ceil_lt_add_one hn
      linarith
  obtain ⟨dom, hd⟩ := hret
  refine ⟨dom, hd, ?_⟩
  obtain ⟨K, h1, h2, hl, -⟩ := precomputePolingF_inv hf hd
  rcases le_or_gt len 0 with h0 | h0
  · exact Or.inr h0
  left
  rw [hl, List.length_map, List.length_range]
  have hw : ∀ k, k < K → k * (p0 / 2) ≤ wallF pp k := by
    intro k hk
    induction k with
    | zero => simp [wallF]
    | succ k ih =>
      have ih := ih (by omega)
      have hn : 0 ≤ wallF pp k := le_trans (by positivity) ih
      have := add_half hp0 hn (h1 k (by omega)) hlen (hpp _ hn (h1 k (by omega)))
      rw [wallF]
      push_cast
      linarith
  rcases Nat.eq_zero_or_pos K with rfl | hK
  · have : 0 ≤ 2 * len / p0 := by positivity
    push_cast; linarith
  · obtain ⟨j, rfl⟩ : ∃ j, K = j + 1 := ⟨K - 1, by omega⟩
    have h3 := (hw j (by omega)).trans (h1 j (by omega)).le
    have : (j : ℝ) ≤ 2 * len / p0 := by
      rw [le_div_iff₀ hpos]; linarith
    push_cast; linarith

/-- the walls of a constant period -/
theorem wallF_near {P : ℝ} (hP : 2 ^ (-1000 : ℤ) ≤ P) (k : ℕ) (hk : ∀ m < k, wallF (fun _ => P) m < len) :
    0 ≤ wallF (fun _ => P) k ∧ |wallF (fun _ => P) k - k * P| ≤ k * ((len + P) * 2 ^ (-53 : ℤ)) := by
  have hP0 : 0 < P := lt_of_lt_of_le (by positivity) hP
  induction k with
  | zero => simp [wallF]
  | succ k ih =>
    obtain ⟨h0, h1⟩ := ih fun m hm => hk m (by omega)
    have hlt := hk k (by omega)
    have h2 := nearest_near (x := wallF (fun _ => P) k + P) (D := len + P) (by rw [abs_of_nonneg (by linarith)]; linarith) (by linarith)
    have h3 := nearest_mono (show (0 : ℝ) ≤ wallF (fun _ => P) k + P by linarith)
    rw [nearest_zero] at h3
    rw [wallF]
    refine ⟨h3, ?_⟩
    have e : nearest (wallF (fun _ => P) k + P) - ((k + 1 : ℕ) : ℝ) * P = (nearest (wallF (fun _ => P) k + P) - (wallF (fun _ => P) k + P)) + (wallF (fun _ => P) k - k * P) := by
      push_cast; ring
    rw [e]
    refine (abs_add_le _ _).trans ?_
    push_cast
    linarith

/-- the middle of a constant period -/
theorem midF_near {P : ℝ} (hP : 2 ^ (-999 : ℤ) ≤ P) (hPf : IsFloat P) (k : ℕ) (hk : ∀ m ≤ k, wallF (fun _ => P) m < len) :
    |midF (fun _ => P) k - (k * P + P / 2)| ≤ (k + 1) * ((len + P) * 2 ^ (-53 : ℤ)) := by
  have e9 : (2 : ℝ) ^ (-999 : ℤ) = 2 * 2 ^ (-1000 : ℤ) := by
    rw [show (-999 : ℤ) = 1 + -1000 by norm_num, zpow_add₀ two_ne_zero]; norm_num
  rw [e9] at hP
  have h1000 : (0 : ℝ) < 2 ^ (-1000 : ℤ) := by positivity
  have hP1 : 2 ^ (-1000 : ℤ) ≤ P := by linarith
  have hP0 : 0 < P := h1000.trans_le hP1
  obtain ⟨h0, h1⟩ := wallF_near hP1 k fun m hm => hk m hm.le
  have hh : nearest (P * (1 / 2)) = P / 2 := by
    rw [mul_one_div]
    exact nearest_exact (hPf.half (by rwa [abs_of_pos hP0]))
  have hlt := hk k le_rfl
  unfold midF
  rw [hh]
  have h2 := nearest_near (x := wallF (fun _ => P) k + P / 2) (D := len + P) (by rw [abs_of_nonneg (by linarith)]; linarith) (by linarith)
  have e : nearest (wallF (fun _ => P) k + P / 2) - (k * P + P / 2) =
      (nearest (wallF (fun _ => P) k + P / 2) - (wallF (fun _ => P) k + P / 2)) + (wallF (fun _ => P) k - k * P) := by ring
  rw [e]
  refine (abs_add_le _ _).trans ?_
  rw [add_mul, one_mul, add_comm]
  exact add_le_add h1 h2

open Classical in
/-- C171: with a constant period the sign computed in double precision is the exact one at every position that is not within the accumulated rounding error of a
wall; the error is one part in `2^53` of the crystal length per period. -/
theorem C171_sign {P : ℝ} (hP : 2 ^ (-999 : ℤ) ≤ P) (hPf : IsFloat P) (hlen : len ≤ 2 ^ 51 * P) {dom : List ℝ × List ℝ}
    (h : precomputePolingF nearest (fun _ => P) len = some dom) {x : ℝ} (hx0 : 0 ≤ x) (hxl : x ≤ len)
    (hx : ∀ j : ℤ, (2 * len / P + 2) * ((len + P) * 2 ^ (-53 : ℤ)) < |x - j * (P / 2)|) :
    poling dom x = if 1 / 2 < Int.fract (x / P) then -1 else 1 := by
  have hP1 : (2 : ℝ) ^ (-1000 : ℤ) ≤ P := le_trans (zpow_le_zpow_right₀ (by norm_num) (by norm_num)) hP
  have hP0 : 0 < P := lt_of_lt_of_le (by positivity) hP
  have hl0 : 0 ≤ len := hx0.trans hxl
  set δ : ℝ := (len + P) * 2 ^ (-53 : ℤ) with hδ
  have hδ0 : 0 ≤ δ := by positivity
  have hδ2 : δ ≤ P / 2 := by
    calc δ ≤ (2 ^ 52 * P) * 2 ^ (-53 : ℤ) := by
          rw [hδ]; gcongr; nlinarith
      _ = P / 2 := by norm_num; ring
  set ε : ℝ := (2 * len / P + 2) * δ with hε
  have hsmall : ∀ k : ℕ, (k : ℝ) ≤ 2 * len / P → (k + 1) * δ ≤ ε := by
    intro k hk
    rw [hε]; gcongr; linarith
  rw [C171_domains (fun _ => hPf) h]
  refine if_congr ?_ rfl rfl
  constructor
  · rintro ⟨j, hj, hm, hw⟩
    have hnear := (wallF_near hP1 j fun m hm => hj m hm.le).2
    have hj1 : (j : ℝ) ≤ 2 * len / P := by
      rw [le_div_iff₀ hP0]
      have := (abs_le.1 hnear).1
      have h3 := hj j le_rfl
      have h4 : j * δ ≤ j * (P / 2) := by gcongr
      linarith
    have hs := hsmall j hj1
    have h1 := (abs_le.1 (midF_near hP hPf j hj)).1
    have h2 := (abs_le.1 (wallF_near hP1 (j + 1) fun m hm => hj m (by omega)).2).2
    push_cast at h2
    rw [← hδ] at h1 h2
    have h5 := hx (2 * j + 1)
    have h6 := hx (2 * j + 2)
    push_cast at h5 h6
    have h7 : j * P + P / 2 < x := by
      rcases lt_abs.1 h5 with h | h
      · have := mul_nonneg (by positivity : (0 : ℝ) ≤ (j : ℝ) + 1) hδ0
        linarith
      · linarith
    have h8 : x < (j + 1) * P := by
      rcases lt_abs.1 h6 with h | h
      · linarith
      · have := mul_nonneg (by positivity : (0 : ℝ) ≤ (j : ℝ) + 1) hδ0
        linarith
    have hfl : ⌊x / P⌋ = j := by
      rw [Int.floor_eq_iff]
      constructor
      · rw [le_div_iff₀ hP0]; push_cast; linarith
      · rw [div_lt_iff₀ hP0]; push_cast; linarith
    rw [Int.fract, hfl, lt_sub_iff_add_lt, lt_div_iff₀ hP0]
    push_cast
    linarith
  · intro hfr
    obtain ⟨k, hk⟩ : ∃ k : ℕ, ⌊x / P⌋ = k := ⟨⌊x / P⌋.toNat, (Int.toNat_of_nonneg (Int.floor_nonneg.mpr (by positivity))).symm⟩
    rw [Int.fract, hk, lt_sub_iff_add_lt, lt_div_iff₀ hP0] at hfr
    push_cast at hfr
    have hlt : x / P < k + 1 := by have := Int.lt_floor_add_one (x / P); rw [hk] at this; exact_mod_cast this
    rw [div_lt_iff₀ hP0] at hlt
    have hkl : (k : ℝ) * P < len := by linarith
    have hk2 : (k : ℝ) ≤ 2 * len / P := by rw [le_div_iff₀ hP0]; linarith
    have hs := hsmall k hk2
    have h5 := hx (2 * k + 1)
    have h6 := hx (2 * k + 2)
    push_cast at h5 h6
    have h7 : k * P + P / 2 + ε < x := by
      rcases lt_abs.1 h5 with h | h <;> linarith
    have h8 : x < (k + 1) * P - ε := by
      rcases lt_abs.1 h6 with h | h <;> linarith
    have hj : ∀ m ≤ k, wallF (fun _ => P) m < len := by
      intro m
      induction m using Nat.strong_induction_on with
      | _ m ih =>
        intro hm
        have h1 := (abs_le.1 (wallF_near hP1 m fun i hi => ih i hi (by omega)).2).2
        have hmk : (m : ℝ) ≤ k := by exact_mod_cast hm
        have h2 : (m : ℝ) * δ ≤ (k + 1) * δ := by gcongr; linarith
        have h3 : (m : ℝ) * P ≤ k * P := by gcongr
        rw [← hδ] at h1
        linarith
    have h1 := (abs_le.1 (midF_near hP hPf k hj)).2
    have h2 := (abs_le.1 (wallF_near hP1 (k + 1) fun m hm => hj m (by omega)).2).1
    push_cast at h2
    rw [← hδ] at h1 h2
    exact ⟨k, hj, by linarith, by linarith⟩

/-- an addition that is too small is lost at a power of two -/
theorem add_same {k : ℤ} (hk : -1000 ≤ k) {t : ℝ} (ht0 : 0 < t) (h : t < 2 ^ (k - 53)) : nearest (2 ^ k + t) = 2 ^ k := by
  have hT : IsFloat ((2 : ℝ) ^ k) := ⟨2 ^ 52, k - 52, by norm_num, by omega, by
    rw [Int.cast_pow, Int.cast_ofNat, ← zpow_natCast, ← zpow_add₀ two_ne_zero]; congr 1; push_cast; ring⟩
  have hpos : (0 : ℝ) < 2 ^ k := by positivity
  have hle : (2 : ℝ) ^ k ≤ nearest (2 ^ k + t) := by
    have := nearest_mono (show (2 : ℝ) ^ k ≤ 2 ^ k + t by linarith)
    rwa [nearest_exact hT] at this
  have hb := nearest_best hT (2 ^ k + t)
  rw [show (2 : ℝ) ^ k - (2 ^ k + t) = -t by ring, abs_neg, abs_of_pos ht0] at hb
  have hb1 := (abs_le.1 hb).2
  have h53 : (2 : ℝ) ^ (k - 52) = 2 * 2 ^ (k - 53) := by
    rw [show k - 52 = 1 + (k - 53) by ring, zpow_add₀ two_ne_zero]; norm_num
  have hlt : nearest (2 ^ k + t) < 2 ^ k + 2 ^ (k - 52) := by rw [h53]; linarith
  rcases (nearest_isFloat (2 ^ k + t)).cases (k - 52) (by omega) with ⟨n, hn⟩ | ⟨-, hn⟩
  · have hk52 : (2 : ℝ) ^ k = (2 : ℝ) ^ 52 * 2 ^ (k - 52) := by
      rw [← zpow_natCast, ← zpow_add₀ two_ne_zero]; congr 1; push_cast; ring
    rw [hn] at hlt hle ⊢
    rw [hk52] at hlt hle ⊢
    have hq : (0 : ℝ) < 2 ^ (k - 52) := by positivity
    have h1 : ((2 : ℝ) ^ 52) ≤ n := le_of_mul_le_mul_right hle hq
    have h2 : (n : ℝ) < 2 ^ 52 + 1 := by
      refine lt_of_mul_lt_mul_right ?_ hq.le
      linarith
    have h1 : (2 : ℤ) ^ 52 ≤ n := by exact_mod_cast h1
    have h2 : n < (2 : ℤ) ^ 52 + 1 := by exact_mod_cast h2
    have : n = 2 ^ 52 := by omega
    rw [this]; push_cast; ring
  · rw [show k - 52 + 52 = k by ring, abs_of_pos (by linarith)] at hn
    linarith

/-- C171: the limit is a real one. With a constant period and a crystal of more than `2^55` periods the loop never ends: the position stops growing. -/
theorem C171_stuck {P : ℝ} (hP : 2 ^ (-1000 : ℤ) ≤ P) (hlen : 2 ^ 55 * P < len) : precomputePolingF nearest (fun _ => P) len = none := by
  have hP0 : 0 < P := lt_of_lt_of_le (by positivity) hP
  obtain ⟨e, he1, he2⟩ : ∃ e : ℤ, (2 : ℝ) ^ e ≤ P ∧ P < 2 ^ (e + 1) :=
    ⟨Int.log 2 P, Int.zpow_log_le_self (by norm_num) hP0, by simpa using Int.lt_zpow_succ_log_self (b := 2) (by norm_num) P⟩
  have hem : -1001 < e := by
    by_contra hc
    have : (2 : ℝ) ^ (e + 1) ≤ 2 ^ (-1000 : ℤ) := zpow_le_zpow_right₀ (by norm_num) (by omega)
    linarith
  have hT : nearest (2 ^ (e + 54) + P) = 2 ^ (e + 54) := add_same (by omega) hP0 (by rwa [show e + 54 - 53 = e + 1 by ring])
  have hTl : (2 : ℝ) ^ (e + 54) < len := by
    refine lt_of_le_of_lt ?_ hlen
    rw [zpow_add₀ two_ne_zero]
    have : (2 : ℝ) ^ e * 2 ^ (54 : ℤ) ≤ P * 2 ^ (54 : ℤ) := by gcongr
    norm_num at this ⊢
    linarith
  refine runLoop_forever (I := fun s : PolSt => s.z ≤ 2 ^ (e + 54)) ?_ (show (0 : ℝ) ≤ 2 ^ (e + 54) by positivity)
  intro s hs
  refine ⟨_, by rw [polBodyF, if_pos (lt_of_le_of_lt hs hTl)], ?_⟩
  show nearest (s.z + P) ≤ 2 ^ (e + 54)
  rw [← hT]
  exact nearest_mono (by linarith [show s.z ≤ 2 ^ (e + 54) from hs])

/-- C171 is not vacuous: periods of `2^-16` m (15 micrometres) in a crystal of `2^-4` m (6 cm), and the signs in the first and in the second half of the 1001st period;
a crystal of 64 km with periods of a picometre is never finished. -/
theorem C171_nonvacuous : (∃ dom, precomputePolingF nearest (fun _ => 2 ^ (-16 : ℤ)) (2 ^ (-4 : ℤ)) = some dom ∧
      poling dom ((1000 + 1 / 4) * 2 ^ (-16 : ℤ)) = 1 ∧ poling dom ((1000 + 3 / 4) * 2 ^ (-16 : ℤ)) = -1) ∧
    precomputePolingF nearest (fun _ => 2 ^ (-40 : ℤ)) (2 ^ 16) = none := by
  have hP : (2 : ℝ) ^ (-999 : ℤ) ≤ 2 ^ (-16 : ℤ) := zpow_le_zpow_right₀ (by norm_num) (by norm_num)
  have hP1 : (2 : ℝ) ^ (-1000 : ℤ) ≤ 2 ^ (-16 : ℤ) := zpow_le_zpow_right₀ (by norm_num) (by norm_num)
  have hf : IsFloat ((2 : ℝ) ^ (-16 : ℤ)) := ⟨1, -16, by norm_num, by norm_num, by norm_num⟩
  have hq : ∀ (r : ℤ) (j : ℤ), (1 : ℝ) / 4 ≤ |(1000 : ℝ) + (2 * (r : ℝ) + 1) / 4 - (j : ℝ) * (1 / 2)| := by
    intro r j
    have h1 : (1 : ℤ) ≤ |4000 + 2 * r + 1 - 2 * j| := Int.one_le_abs (by omega)
    have h2 : (1 : ℝ) ≤ |(4000 : ℝ) + 2 * (r : ℝ) + 1 - 2 * (j : ℝ)| := by exact_mod_cast h1
    have e : (1000 : ℝ) + (2 * r + 1) / 4 - j * (1 / 2) = (4000 + 2 * r + 1 - 2 * j) / 4 := by ring
    rw [e, abs_div, abs_of_pos (by norm_num : (0 : ℝ) < 4)]
    linarith
  have hx : ∀ (r j : ℤ), (2 * (2 : ℝ) ^ (-4 : ℤ) / 2 ^ (-16 : ℤ) + 2) * ((2 ^ (-4 : ℤ) + 2 ^ (-16 : ℤ)) * 2 ^ (-53 : ℤ)) <
      |(1000 + (2 * r + 1) / 4) * (2 : ℝ) ^ (-16 : ℤ) - j * (2 ^ (-16 : ℤ) / 2)| := by
    intro r j
    have e : (1000 + (2 * r + 1) / 4) * (2 : ℝ) ^ (-16 : ℤ) - j * (2 ^ (-16 : ℤ) / 2) = (1000 + (2 * r + 1) / 4 - j * (1 / 2)) * 2 ^ (-16 : ℤ) := by ring
    rw [e, abs_mul, abs_of_pos (by positivity : (0 : ℝ) < 2 ^ (-16 : ℤ))]
    refine lt_of_lt_of_le ?_ (mul_le_mul_of_nonneg_right (hq r j) (by positivity))
    norm_num
  refine ⟨?_, C171_stuck (zpow_le_zpow_right₀ (by norm_num) (by norm_num)) (by norm_num)⟩
  obtain ⟨dom, hd, -⟩ := C171_returns (pp := fun _ => 2 ^ (-16 : ℤ)) (len := 2 ^ (-4 : ℤ)) hP1 (fun _ _ _ => le_rfl) (fun _ => hf) (by norm_num)
  refine ⟨dom, hd, ?_, ?_⟩
  · have h := C171_sign hP hf (by norm_num) hd (x := (1000 + (2 * (0 : ℤ) + 1) / 4) * 2 ^ (-16 : ℤ)) (by norm_num) (by norm_num) (hx 0)
    rw [if_neg (by rw [mul_div_assoc, div_self (by positivity), mul_one]; norm_num [Int.fract])] at h
    convert h using 2
    norm_num
  · have h := C171_sign hP hf (by norm_num) hd (x := (1000 + (2 * (1 : ℤ) + 1) / 4) * 2 ^ (-16 : ℤ)) (by norm_num) (by norm_num) (hx 1)
    rw [if_pos (by rw [mul_div_assoc, div_self (by positivity), mul_one]; norm_num [Int.fract])] at h
    convert h using 2
    norm_num

end PyNLO.Dfg
