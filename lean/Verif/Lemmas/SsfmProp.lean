import Verif.Model.SsfmProp
import Verif.Lemmas.SsfmOps
import Verif.Lemmas.Pulse
import Verif.Props.PulseSpectrum

/-! # Unfolding `propagate` -/

namespace PyNLO.Ssfm

open Complex Pulse

/-- everything a successful `propagate` did -/
theorem propagate_cases {polyfit : Fiber.PolyFit} {spline : Fiber.Spline} {o o' : Obj} {p : Pulse} {F F' : FibObj} {N : ℕ}
    {reload : Bool} {r : Result} (h : propagate polyfit spline o p F N reload = some (.ok (r, o', F'))) :
    N ≠ 0 ∧ ∃ L out P0 A fR P F1 s out',
      F.fib.length = some L ∧ createClonedPulse p = .ok out ∧ setup o p F = .ok (P0, A, fR) ∧
      loadFiber polyfit spline p 0 P0 F = (.ok P, F1) ∧
      segLoop polyfit spline p reload (L / N) N 0 ⟨P, F1, ⟨A, ⟨none, 0, fun _ => 0⟩, o.iter, o.dz⟩, out, [], []⟩ = some (.ok s) ∧
      setAT ⟨p.n, ifftshift s.fld.A⟩ s.out = (.ok (), out') ∧
      r = ⟨linspace0 L N, s.AW, s.AT, out'⟩ ∧ o' = { o with dz := s.fld.dz, iter := s.fld.iter, fR := fR } ∧ F' = s.F := by
  unfold propagate at h
  by_cases hN : N = 0
  · rw [if_pos hN] at h; simp at h
  · rw [if_neg hN] at h
    refine ⟨hN, ?_⟩
    rcases hL : F.fib.length with _ | L
    · rw [hL] at h; simp at h
    rw [hL] at h
    simp only [except_bind_ok] at h
    rcases hc : createClonedPulse p with e | out
    · rw [hc] at h; simp at h
    rw [hc] at h
    simp only [except_bind_ok] at h
    rcases hs : setup o p F with e | ⟨P0, A, fR⟩
    · rw [hs] at h; simp at h
    rw [hs] at h
    simp only [except_bind_ok] at h
    rcases hl : loadFiber polyfit spline p 0 P0 F with ⟨e | P, F1⟩
    · rw [hl] at h; simp at h
    rw [hl] at h
    simp only at h
    have hdz : (if N = 1 then L else 1 * (L / N) - 0 * (L / N)) = L / N := by
      split_ifs with h1
      · rw [h1]; simp
      · ring
    rw [hdz] at h
    rcases hseg : segLoop polyfit spline p reload (L / N) N 0 ⟨P, F1, ⟨A, ⟨none, 0, fun _ => 0⟩, o.iter, o.dz⟩, out, [], []⟩ with _ | e | s
    · rw [hseg] at h; simp at h
    · rw [hseg] at h; simp at h
    rw [hseg] at h
    simp only at h
    rcases ha : setAT ⟨p.n, ifftshift s.fld.A⟩ s.out with ⟨e | u, out'⟩
    · rw [ha] at h; simp at h
    rw [ha] at h
    simp only [Option.some.injEq, Except.ok.injEq, Prod.mk.injEq] at h
    exact ⟨L, out, P0, A, fR, P, F1, s, out', rfl, rfl, rfl, hl, hseg, ha, h.1.symm, h.2.1.symm, h.2.2.symm⟩

/-- one segment -/
structure Step (polyfit : Fiber.PolyFit) (spline : Fiber.Spline) (p : Pulse) (reload : Bool) (deltaZ : ℝ) {n : ℕ} (i : ℕ)
    (s s' : Seg n) : Prop where
  load : (if reload then loadFiber polyfit spline p (i * deltaZ) s.P s.F else (.ok s.P, s.F)) = (.ok s'.P, s'.F)
  integ : ∃ fld, integrate s'.P deltaZ 1 s.fld = some fld ∧ record { s with P := s'.P, F := s'.F, fld := fld } = .ok s'

theorem record_PF {n : ℕ} {s s' : Seg n} (h : record s = .ok s') : s'.P = s.P ∧ s'.F = s.F := by
  unfold record at h
  simp only at h
  rcases ha : setAT ⟨n, ifftshift (ifftshift s.fld.A)⟩ s.out with ⟨e | u, out'⟩
  · rw [ha] at h; simp at h
  · rw [ha] at h
    simp only [Except.ok.injEq] at h
    rw [← h]
    exact ⟨rfl, rfl⟩

theorem segLoop_trace {polyfit : Fiber.PolyFit} {spline : Fiber.Spline} {p : Pulse} {reload : Bool} {deltaZ : ℝ} {n : ℕ} :
    ∀ (m i : ℕ) {s s' : Seg n}, segLoop polyfit spline p reload deltaZ m i s = some (.ok s') →
      ∃ S : ℕ → Seg n, S 0 = s ∧ S m = s' ∧ ∀ j < m, Step polyfit spline p reload deltaZ (i + j) (S j) (S (j + 1)) := by
  intro m
  induction m with
  | zero =>
    intro i s s' h
    unfold segLoop at h
    simp only [Option.some.injEq, Except.ok.injEq] at h
    exact ⟨fun _ => s, rfl, h, fun j hj => absurd hj (Nat.not_lt_zero j)⟩
  | succ m ih =>
    intro i s s' h
    unfold segLoop at h
    rcases hl : (if reload then loadFiber polyfit spline p (i * deltaZ) s.P s.F else (.ok s.P, s.F) : Except PyErr (Params n) × FibObj) with ⟨e | P, F⟩
    · rw [hl] at h; simp at h
    rw [hl] at h
    simp only at h
    rcases hi : integrate P deltaZ 1 s.fld with _ | fld
    · rw [hi] at h; simp at h
    rw [hi] at h
    simp only at h
    rcases hr : record { s with P := P, F := F, fld := fld } with e | s1
    · rw [hr] at h; simp at h
    rw [hr] at h
    simp only at h
    obtain ⟨S, h0, hm, hS⟩ := ih (i + 1) h
    obtain ⟨q1, q2⟩ := record_PF hr
    simp only at q1 q2
    refine ⟨fun j => Nat.casesOn j s S, rfl, hm, ?_⟩
    intro j hj
    cases j with
    | zero =>
      simp only [h0]
      exact ⟨by rw [q1, q2]; exact hl, fld, by rw [q1]; exact hi, by rw [q1, q2]; exact hr⟩
    | succ j =>
      have := hS j (by omega)
      rw [show i + (j + 1) = i + 1 + j by omega]
      exact this

theorem record_eq {n : ℕ} {s : Seg n} {b : Fin n → ℂ} (hH : Holds s.out b) :
    record s = .ok { s with fld := { s.fld with A := ifftshift (ifftshift s.fld.A) }, out := { s.out with aw := some ⟨n, fftT (ifftshift (ifftshift s.fld.A))⟩ }, AW := s.AW ++ [⟨n, ifftshift (ifft s.fld.A)⟩], AT := s.AT ++ [⟨n, ifftshift s.fld.A⟩] } := by
  unfold record
  simp only
  rw [hH.setAT_eq]

theorem ifftshift_twice {n : ℕ} (he : n % 2 = 0) {α : Type} (x : Fin n → α) : ifftshift (ifftshift x) = x := by
  rw [← fftshift_eq_ifftshift he (ifftshift x), fftshift_ifftshift]

theorem fftT_ifftshift {n : ℕ} (x : Fin n → ℂ) : fftT (ifftshift x) = ifftshift (ifft x) := by
  unfold fftT
  rw [fftshift_ifftshift]

theorem fill_mk {α : Type} {n : ℕ} (v : Fin n → α) : fill n ⟨n, v⟩ = .ok v := by
  unfold fill
  rw [dif_pos rfl]
  rfl

/-- the states of a trace, even grid -/
theorem trace_even {polyfit : Fiber.PolyFit} {spline : Fiber.Spline} {p : Pulse} {reload : Bool} {deltaZ : ℝ} {n : ℕ}
    (he : n % 2 = 0) {m : ℕ} {S : ℕ → Seg n} (hS : ∀ j < m, Step polyfit spline p reload deltaZ (0 + j) (S j) (S (j + 1)))
    {b : Fin n → ℂ} (h0 : Holds (S 0).out b) (hAT : (S 0).AT = []) (hAW : (S 0).AW = []) (j : ℕ) (hj : j ≤ m) :
    (∃ b, Holds (S j).out b ∧ (S j).out = { (S 0).out with aw := some ⟨n, b⟩ }) ∧
    (S j).AT = (List.range j).map (fun i => (⟨n, ifftshift (S (i + 1)).fld.A⟩ : Vec ℂ)) ∧
    (S j).AW = (List.range j).map (fun i => (⟨n, fftT (ifftshift (S (i + 1)).fld.A)⟩ : Vec ℂ)) ∧
    (∀ i < j, integrate (S (i + 1)).P deltaZ 1 (S i).fld = some (S (i + 1)).fld) := by
  induction j with
  | zero =>
    refine ⟨⟨b, h0, ?_⟩, by simp [hAT], by simp [hAW], fun i hi => absurd hi (Nat.not_lt_zero i)⟩
    have := h0.field
    rw [← this]
  | succ j ih =>
    obtain ⟨⟨b, hb, hout⟩, hat, haw, hint⟩ := ih (by omega)
    obtain ⟨hl, fld, hi, hr⟩ := hS j (by omega)
    have := record_eq (s := { S j with P := (S (j + 1)).P, F := (S (j + 1)).F, fld := fld }) (b := b) hb
    rw [this] at hr
    have hr' := Except.ok.inj hr
    simp only [ifftshift_twice he] at hr'
    have hf : (S (j + 1)).fld = fld := by rw [← hr']
    refine ⟨⟨fftT fld.A, ?_, ?_⟩, ?_, ?_, ?_⟩
    · rw [← hr']; exact hb.update _
    · rw [← hr']; simp only; rw [hout]
    · rw [List.range_succ, List.map_append, ← hat, List.map_singleton, hf]
      rw [← hr']
    · rw [List.range_succ, List.map_append, ← haw, List.map_singleton, hf, fftT_ifftshift]
      rw [← hr']
    · intro i hij
      rcases Nat.lt_succ_iff_lt_or_eq.mp hij with h | rfl
      · exact hint i h
      · rw [hf]; exact hi

end PyNLO.Ssfm
