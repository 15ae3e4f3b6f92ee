import Verif.Model.Dfg
import Verif.Spec.Dfg
import Mathlib.Algebra.Order.Floor.Ring
import Mathlib.Tactic.Linarith
import Mathlib.Tactic.Positivity

/-!
# Poling of a crystal
-/

namespace PyNLO.Dfg

open Spec

variable {pp : ℝ → ℝ} {len : ℝ}

theorem precomputePoling_inv {dom : List ℝ × List ℝ} (h : precomputePoling pp len = some dom) :
    ∃ K, (∀ k < K, wall pp k < len) ∧ len ≤ wall pp K ∧
      dom.1 = (List.range K).map (fun k => wall pp k + pp (wall pp k) / 2) ∧
      dom.2 = (List.range K).map (fun k => wall pp (k + 1)) := by
  refine runLoop_invariant (body := polBody pp len) (s := ⟨0, [], []⟩) (Q := fun dom : List ℝ × List ℝ =>
      ∃ K, (∀ k < K, wall pp k < len) ∧ len ≤ wall pp K ∧
      dom.1 = (List.range K).map (fun k => wall pp k + pp (wall pp k) / 2) ∧
      dom.2 = (List.range K).map (fun k => wall pp (k + 1))) (I := fun s : PolSt => ∃ K, (∀ k < K, wall pp k < len) ∧ s.z = wall pp K ∧
      s.lb = (List.range K).map (fun k => wall pp k + pp (wall pp k) / 2) ∧
      s.ub = (List.range K).map (fun k => wall pp (k + 1))) ?_ ?_ ⟨0, by simp, rfl, rfl, rfl⟩ h
  · rintro s s' ⟨K, h1, hz, hl, hu⟩ hb
    unfold polBody at hb
    split_ifs at hb with hlt
    rw [← Sum.inl.inj hb]
    refine ⟨K + 1, fun k hk => ?_, ?_, ?_, ?_⟩
    · rcases Nat.lt_succ_iff_lt_or_eq.mp hk with hk | rfl
      · exact h1 k hk
      · rw [← hz]; exact hlt
    · simp [wall, hz]
    · simp only [hl, hz, List.range_succ, List.map_append, List.map_cons, List.map_nil]
      congr 3
      ring
    · simp [hu, hz, List.range_succ, wall]
  · rintro s r ⟨K, h1, hz, hl, hu⟩ hb
    unfold polBody at hb
    split_ifs at hb with hlt
    rw [← Sum.inr.inj hb]
    exact ⟨K, h1, by rw [← hz]; exact not_lt.mp hlt, hl, hu⟩

open Classical in
/-- C68: the domains of any period function: the sign is -1 exactly strictly inside the second half of a period that begins
in the crystal. -/
theorem C68_domains {dom : List ℝ × List ℝ} (h : precomputePoling pp len = some dom) (x : ℝ) :
    poling dom x = if ∃ k, (∀ m ≤ k, wall pp m < len) ∧ wall pp k + pp (wall pp k) / 2 < x ∧ x < wall pp (k + 1)
      then -1 else 1 := by
  obtain ⟨K, h1, h2, hl, hu⟩ := precomputePoling_inv h
  rw [poling, hl, hu]
  refine if_congr ?_ rfl rfl
  rw [List.zip_map']
  simp only [List.mem_map, List.mem_range]
  constructor
  · rintro ⟨d, ⟨k, hk, rfl⟩, hx⟩
    exact ⟨k, fun m hm => h1 m (by omega), hx⟩
  · rintro ⟨k, hk, hx⟩
    refine ⟨_, ⟨k, ?_, rfl⟩, hx⟩
    by_contra hc
    exact absurd (hk K (by omega)) (not_lt.mpr h2)

theorem wall_strictMono (hpp : ∀ z, 0 < pp z) : StrictMono (wall pp) :=
  strictMono_nat_of_lt_succ fun k => by simp [wall, hpp]

/-- C68: with a positive period function, in a period that begins in the crystal the sign is 1 up to the middle and -1
after it. -/
theorem C68_in_period (hpp : ∀ z, 0 < pp z) {dom : List ℝ × List ℝ} (h : precomputePoling pp len = some dom) {k : ℕ}
    (hk : wall pp k < len) {x : ℝ} (hx : wall pp k ≤ x) (hx' : x < wall pp (k + 1)) :
    poling dom x = if wall pp k + pp (wall pp k) / 2 < x then -1 else 1 := by
  classical
  rw [C68_domains h]
  have hm := wall_strictMono hpp
  refine if_congr ⟨?_, fun hlt => ⟨k, fun m hmk => lt_of_le_of_lt (hm.monotone hmk) hk, hlt, hx'⟩⟩ rfl rfl
  rintro ⟨j, -, h1, h2⟩
  rcases lt_trichotomy j k with hj | rfl | hj
  · have : wall pp (j + 1) ≤ wall pp k := hm.monotone hj
    linarith
  · exact h1
  · have : wall pp (k + 1) ≤ wall pp j := hm.monotone hj
    have := hpp (wall pp j)
    linarith

/-- C68: `precompute_poling` ends whenever the period function is bounded below by a positive number. -/
theorem C68_terminates {ε : ℝ} (hε : 0 < ε) (hpp : ∀ z, ε ≤ pp z) (len : ℝ) : ∃ dom, precomputePoling pp len = some dom := by
  refine runLoop_terminates (I := fun _ => True) (fun s => ⌈(len - s.z) / ε⌉₊) ?_ trivial
  intro s s' _ hb
  unfold polBody at hb
  split_ifs at hb with hlt
  rw [← Sum.inl.inj hb]
  refine ⟨trivial, ?_⟩
  show ⌈(len - (s.z + pp s.z)) / ε⌉₊ < ⌈(len - s.z) / ε⌉₊
  have h0 : 0 < (len - s.z) / ε := div_pos (by linarith) hε
  have h1 : (len - (s.z + pp s.z)) / ε ≤ (len - s.z) / ε - 1 := by
    rw [div_le_iff₀ hε]
    have := hpp s.z
    field_simp
    linarith
  have h2 : 0 < ⌈(len - s.z) / ε⌉₊ := Nat.ceil_pos.mpr h0
  have h3 : ⌈(len - (s.z + pp s.z)) / ε⌉₊ ≤ ⌈(len - s.z) / ε⌉₊ - 1 := by
    rw [Nat.ceil_le, Nat.cast_sub h2, Nat.cast_one]
    have := Nat.le_ceil ((len - s.z) / ε)
    linarith
  omega

/-- C68: constant period. -/
theorem C68_constant {P : ℝ} (hP : 0 < P) (len : ℝ) : ∃ dom, precomputePoling (fun _ => P) len = some dom ∧
    ∀ x, 0 ≤ x → x ≤ len → poling dom x = if 1 / 2 < Int.fract (x / P) then -1 else 1 := by
  obtain ⟨dom, hd⟩ := C68_terminates hP (pp := fun _ => P) (fun _ => le_rfl) len
  refine ⟨dom, hd, fun x hx hxl => ?_⟩
  have hw : ∀ k, wall (fun _ => P) k = k * P := by
    intro k
    induction k with
    | zero => simp [wall]
    | succ k ih => rw [wall, ih]; push_cast; ring
  have hf : 0 ≤ x / P := by positivity
  obtain ⟨k, hk⟩ : ∃ k : ℕ, ⌊x / P⌋ = k := ⟨⌊x / P⌋.toNat, (Int.toNat_of_nonneg (Int.floor_nonneg.mpr hf)).symm⟩
  have hle : (k : ℝ) ≤ x / P := by have := Int.floor_le (x / P); rw [hk] at this; exact_mod_cast this
  have hlt : x / P < k + 1 := by have := Int.lt_floor_add_one (x / P); rw [hk] at this; exact_mod_cast this
  have hxe : x = x / P * P := by field_simp
  have hkx : (k : ℝ) * P ≤ x := by rw [hxe]; gcongr
  have hfr : Int.fract (x / P) = x / P - k := by rw [Int.fract, hk]; simp
  rcases lt_or_eq_of_le (hkx.trans hxl) with hkl | hkl
  · rw [C68_in_period (fun _ => hP) hd (k := k) (by rw [hw]; exact hkl) (by rw [hw]; exact hkx)
      (by rw [hw]; push_cast; rw [hxe]; gcongr), hw]
    refine if_congr ?_ rfl rfl
    rw [hfr]
    constructor
    · intro h
      have : (k + 1 / 2) * P < x / P * P := by rw [← hxe]; linarith
      have := lt_of_mul_lt_mul_right this hP.le
      linarith
    · intro h
      have : (k + 1 / 2) * P < x / P * P := by gcongr; linarith
      rw [← hxe] at this
      linarith
  · have hxk : x = k * P := le_antisymm (by linarith) hkx
    have h0 : Int.fract (x / P) = 0 := by rw [hfr, hxk]; field_simp; simp
    rw [h0, if_neg (by norm_num), C68_domains hd, if_neg]
    rintro ⟨j, hj, h1, h2⟩
    simp only [hw] at hj h1 h2
    have h3 := hj j le_rfl
    rw [← hkl] at h3
    have hjk : (j : ℝ) < k := lt_of_mul_lt_mul_right h3 hP.le
    have hjk : j + 1 ≤ k := by exact_mod_cast hjk
    have : ((j + 1 : ℕ) : ℝ) * P ≤ k * P := by gcongr
    linarith

theorem C68_constant_witness : ∃ dom, precomputePoling (fun _ => (2 : ℝ)) 7 = some dom ∧ poling dom 4.5 = 1 ∧ poling dom 5.5 = -1 := by
  obtain ⟨dom, h, hx⟩ := C68_constant (P := 2) (by norm_num) 7
  refine ⟨dom, h, ?_, ?_⟩
  · rw [hx _ (by norm_num) (by norm_num), if_neg]
    norm_num [Int.fract]
  · rw [hx _ (by norm_num) (by norm_num), if_pos]
    norm_num [Int.fract]

/-- The bound is needed: with periods that are not positive the loop never ends. -/
theorem C68_forever (hpp : ∀ z, pp z ≤ 0) (hl : 0 < len) : precomputePoling pp len = none := by
  refine runLoop_forever (I := fun s : PolSt => s.z ≤ 0) ?_ le_rfl
  intro s hs
  have : s.z < len := by linarith
  refine ⟨_, by rw [polBody, if_pos this], ?_⟩
  have := hpp s.z
  show s.z + pp s.z ≤ 0
  linarith

/-- Positive periods do not suffice: a chirp that vanishes at the end of the crystal makes the loop run for ever. -/
theorem C68_chirp_forever (hl : 0 < len) : precomputePoling (fun z => if z < len then (len - z) / 2 else 1) len = none := by
  refine runLoop_forever (I := fun s : PolSt => s.z < len) ?_ hl
  intro s hs
  refine ⟨_, by rw [polBody, if_pos hs], ?_⟩
  show s.z + (if s.z < len then (len - s.z) / 2 else 1) < len
  rw [if_pos hs]
  linarith

end PyNLO.Dfg
