import Verif.Lemmas.SsfmOps

/-! # Maps of fields that send one integration to another, possibly with other parameters or in the other direction -/

namespace PyNLO.Ssfm

open Complex

variable {n : ℕ}

/-- index of the mirror image: `-k` modulo `n` -/
def negIdx (k : Fin n) : Fin n := ⟨(n - k) % n, Nat.mod_lt _ k.pos⟩

/-- mirror image -/
def mirror {α : Type _} (x : Fin n → α) : Fin n → α := fun k => x (negIdx k)

theorem negIdx_dvd (k : Fin n) : (n : ℤ) ∣ ((negIdx k : ℕ) : ℤ) + (k : ℕ) := by
  have hk := k.isLt
  show (n : ℤ) ∣ (((n - (k : ℕ)) % n : ℕ) : ℤ) + (k : ℕ)
  rcases Nat.eq_zero_or_pos (k : ℕ) with h | h
  · rw [h]
    simp
  · rw [Nat.mod_eq_of_lt (by omega), Nat.cast_sub hk.le]
    simp

theorem negIdx_unique {k l : Fin n} (h : (n : ℤ) ∣ ((l : ℕ) : ℤ) + (k : ℕ)) : l = negIdx k := by
  refine fin_dvd_sub.1 ?_
  have := dvd_sub h (negIdx_dvd k)
  simpa using this

theorem negIdx_negIdx (k : Fin n) : negIdx (negIdx k) = k := by
  refine (negIdx_unique ?_).symm
  have := negIdx_dvd k
  rwa [add_comm] at this

theorem mirror_mirror {α : Type _} (x : Fin n → α) : mirror (mirror x) = x := by
  funext k
  show x (negIdx (negIdx k)) = x k
  rw [negIdx_negIdx]

/-- `negIdx` as a permutation -/
def negEquiv (n : ℕ) : Fin n ≃ Fin n := ⟨negIdx, negIdx, negIdx_negIdx, negIdx_negIdx⟩

theorem sum_mirror {β : Type _} [AddCommMonoid β] (f : Fin n → β) : ∑ k, mirror f k = ∑ k, f k :=
  Equiv.sum_comp (negEquiv n) f

theorem rootE_negIdx (k : Fin n) (a : ℤ) : rootE n ((negIdx k : ℕ) * a) = rootE n (-((k : ℕ) * a)) := by
  have hn : n ≠ 0 := by have := k.isLt; omega
  refine rootE_congr_of_dvd hn ?_
  have := (negIdx_dvd k).mul_right a
  rwa [show ((negIdx k : ℕ) : ℤ) * a - -((k : ℕ) * a) = (((negIdx k : ℕ) : ℤ) + (k : ℕ)) * a by ring]

theorem fft_mirror (x : Fin n → ℂ) : fft (mirror x) = mirror (fft x) := by
  funext k
  show ∑ j, mirror x j * rootE n (-((j : ℕ) * (k : ℕ) : ℤ)) = ∑ j, x j * rootE n (-((j : ℕ) * (negIdx k : ℕ) : ℤ))
  rw [← sum_mirror fun j => x j * rootE n (-((j : ℕ) * (negIdx k : ℕ) : ℤ))]
  refine Finset.sum_congr rfl fun j _ => ?_
  show x (negIdx j) * _ = x (negIdx j) * _
  congr 1
  rw [show -(((negIdx j : ℕ) : ℤ) * (negIdx k : ℕ)) = ((negIdx j : ℕ) : ℤ) * (-(negIdx k : ℕ)) by ring, rootE_negIdx,
    show -(((j : ℕ) : ℤ) * -((negIdx k : ℕ) : ℤ)) = ((negIdx k : ℕ) : ℤ) * (j : ℕ) by ring, rootE_negIdx, mul_comm]

theorem ifft_mirror (x : Fin n → ℂ) : ifft (mirror x) = mirror (ifft x) := by
  have : fft (ifft (mirror x)) = fft (mirror (ifft x)) := by rw [fft_ifft, fft_mirror, fft_ifft]
  have := congrArg ifft this
  rwa [ifft_fft, ifft_fft] at this

theorem applySpec_mirror (E A : Fin n → ℂ) : applySpec (mirror E) (mirror A) = mirror (applySpec E A) := by
  unfold applySpec
  rw [ifft_mirror, ← fft_mirror]
  rfl

/-- complex conjugate of a field -/
noncomputable def conjF (x : Fin n → ℂ) : Fin n → ℂ := fun k => (starRingEnd ℂ) (x k)

theorem conjF_conjF (x : Fin n → ℂ) : conjF (conjF x) = x := by
  funext k
  exact Complex.conj_conj _

theorem fft_conj (x : Fin n → ℂ) : fft (conjF x) = mirror (conjF (fft x)) := by
  funext k
  show ∑ j, (starRingEnd ℂ) (x j) * rootE n (-((j : ℕ) * (k : ℕ) : ℤ)) = (starRingEnd ℂ) (∑ j, x j * rootE n (-((j : ℕ) * (negIdx k : ℕ) : ℤ)))
  rw [map_sum]
  refine Finset.sum_congr rfl fun j _ => ?_
  rw [map_mul, conj_rootE, neg_neg, mul_comm ((j : ℕ) : ℤ), mul_comm ((j : ℕ) : ℤ), rootE_negIdx]

theorem mirror_conjF (x : Fin n → ℂ) : mirror (conjF x) = conjF (mirror x) := rfl

theorem ifft_conj (x : Fin n → ℂ) : ifft (conjF x) = mirror (conjF (ifft x)) := by
  have h := fft_conj (ifft x)
  rw [fft_ifft] at h
  have h2 : conjF x = mirror (fft (conjF (ifft x))) := by rw [h, mirror_mirror]
  rw [h2, ifft_mirror, ifft_fft]

theorem applySpec_conj (E A : Fin n → ℂ) : conjF (applySpec E A) = applySpec (mirror (conjF E)) (conjF A) := by
  unfold applySpec
  rw [ifft_conj]
  have h := fft_conj (fun k => E k * ifft A k)
  have h2 : conjF (fft fun k => E k * ifft A k) = mirror (fft (conjF fun k => E k * ifft A k)) := by rw [h, mirror_mirror]
  rw [h2, ← fft_mirror]
  congr 1
  funext k
  show (starRingEnd ℂ) (E (negIdx k) * ifft A (negIdx k)) = (starRingEnd ℂ) (E (negIdx k)) * (starRingEnd ℂ) (ifft A (negIdx k))
  rw [map_mul]

/-- a map of fields that sends a step with the parameters `p` in the direction `d` to a step with `q` in the direction `e` -/
structure Moves (p q : Params n) (d e : ℝ) (T : (Fin n → ℂ) → Fin n → ℂ) : Prop where
  lin : ∀ (a b : ℝ) (x y : Fin n → ℂ), T (fun j => (a : ℂ) * x j + (b : ℂ) * y j) = fun j => (a : ℂ) * T x j + (b : ℂ) * T y j
  spec : ∀ h A, T (applySpec (Spec.halfStep p.betas p.alpha h d) A) = applySpec (Spec.halfStep q.betas q.alpha h e) (T A)
  nl : ∀ (h : ℝ) A, T (fun j => ((h * d : ℝ) : ℂ) * nonlinear p A j * A j) = fun j => ((h * e : ℝ) : ℂ) * nonlinear q (T A) j * T A j
  kick : p.method = .ssfm → d = e ∧ ∀ (h : ℝ) A, T (kick p A h d) = PyNLO.Ssfm.kick q (T A) h e
  method : q.method = p.method
  eta : q.eta = p.eta
  localError : q.localError = p.localError
  dzMin : q.dzMin = p.dzMin

/-- a map of fields that also keeps the estimate of the local error, hence the steps taken -/
structure Sends (p q : Params n) (d e : ℝ) (T : (Fin n → ℂ) → Fin n → ℂ) : Prop extends Moves p q d e T where
  err : ∀ h A, localErr (T (Spec.adv p d h (Spec.adv p d h A))) (T (Spec.adv p d (2 * h) A)) =
    localErr (Spec.adv p d h (Spec.adv p d h A)) (Spec.adv p d (2 * h) A)

/-- an isometry keeps the local error -/
theorem localErr_isometry {T : (Fin n → ℂ) → Fin n → ℂ} (hl : ∀ (a b : ℝ) (x y : Fin n → ℂ), T (fun j => (a : ℂ) * x j + (b : ℂ) * y j) = fun j => (a : ℂ) * T x j + (b : ℂ) * T y j)
    (hn : ∀ A, norm2 (T A) = norm2 A) (x y : Fin n → ℂ) : localErr (T x) (T y) = localErr x y := by
  have h := hl 1 (-1) x y
  simp only [ofReal_one, one_mul, ofReal_neg, neg_mul, ← sub_eq_add_neg] at h
  unfold localErr
  rw [← h, hn, hn]

variable {p q : Params n} {d e : ℝ} {T : (Fin n → ℂ) → Fin n → ℂ}

theorem Moves.add2 (hT : Moves p q d e T) (x y : Fin n → ℂ) (b : ℝ) : T (fun j => x j + y j / (b : ℂ)) = fun j => T x j + T y j / (b : ℂ) := by
  have := hT.lin 1 (1 / b) x y
  simp only [ofReal_one, one_mul, ofReal_div, one_div_mul_eq_div] at this
  exact this

theorem Moves.add (hT : Moves p q d e T) (x y : Fin n → ℂ) : T (fun j => x j + y j) = fun j => T x j + T y j := by
  have := hT.lin 1 1 x y
  simp only [ofReal_one, one_mul] at this
  exact this

theorem Moves.sub2 (hT : Moves p q d e T) (a b : ℝ) (x y : Fin n → ℂ) :
    T (fun j => (a : ℂ) * x j - (b : ℂ) * y j) = fun j => (a : ℂ) * T x j - (b : ℂ) * T y j := by
  have := hT.lin a (-b) x y
  simp only [ofReal_neg, neg_mul, ← sub_eq_add_neg] at this
  exact this

theorem Moves.rk4ip (hT : Moves p q d e T) (A : Fin n → ℂ) (h : ℝ) :
    T (rk4ipWith p (Spec.halfStep p.betas p.alpha h d) A h d) = rk4ipWith q (Spec.halfStep q.betas q.alpha h e) (T A) h e := by
  set E := Spec.halfStep p.betas p.alpha h d with hE
  set E' := Spec.halfStep q.betas q.alpha h e with hE'
  have hs : ∀ A, T (applySpec E A) = applySpec E' (T A) := hT.spec h
  have a2 : ∀ x y, T (fun j => x j + y j / 2) = fun j => T x j + T y j / 2 := fun x y => by simpa using hT.add2 x y 2
  have a3 : ∀ x y, T (fun j => x j + y j / 3) = fun j => T x j + T y j / 3 := fun x y => by simpa using hT.add2 x y 3
  have a6 : ∀ x y, T (fun j => x j + y j / 6) = fun j => T x j + T y j / 6 := fun x y => by simpa using hT.add2 x y 6
  let N : (Fin n → ℂ) → Fin n → ℂ := fun u j => ((h * d : ℝ) : ℂ) * nonlinear p u j * u j
  let N' : (Fin n → ℂ) → Fin n → ℂ := fun u j => ((h * e : ℝ) : ℂ) * nonlinear q u j * u j
  have hN : ∀ u, T (N u) = N' (T u) := fun u => hT.nl h u
  let K1 : (Fin n → ℂ) → Fin n → ℂ := fun A => applySpec E (N A)
  let K1' : (Fin n → ℂ) → Fin n → ℂ := fun A => applySpec E' (N' A)
  have hK1 : ∀ u, T (K1 u) = K1' (T u) := fun u => by simp only [K1, K1', hs, hN]
  let K2 : (Fin n → ℂ) → Fin n → ℂ := fun A => N fun j => applySpec E A j + K1 A j / 2
  let K2' : (Fin n → ℂ) → Fin n → ℂ := fun A => N' fun j => applySpec E' A j + K1' A j / 2
  have hK2 : ∀ u, T (K2 u) = K2' (T u) := fun u => by simp only [K2, K2', hN, a2, hs, hK1]
  let K3 : (Fin n → ℂ) → Fin n → ℂ := fun A => N fun j => applySpec E A j + K2 A j / 2
  let K3' : (Fin n → ℂ) → Fin n → ℂ := fun A => N' fun j => applySpec E' A j + K2' A j / 2
  have hK3 : ∀ u, T (K3 u) = K3' (T u) := fun u => by simp only [K3, K3', hN, a2, hs, hK2]
  let K4 : (Fin n → ℂ) → Fin n → ℂ := fun A => N (applySpec E fun j => applySpec E A j + K3 A j)
  let K4' : (Fin n → ℂ) → Fin n → ℂ := fun A => N' (applySpec E' fun j => applySpec E' A j + K3' A j)
  have hK4 : ∀ u, T (K4 u) = K4' (T u) := fun u => by simp only [K4, K4', hN, hs, hT.add, hK3]
  have e1 : rk4ipWith p E A h d = fun j => applySpec E (fun j => applySpec E A j + K1 A j / 6 + K2 A j / 3 + K3 A j / 3) j
      + K4 A j / 6 := rfl
  have e2 : rk4ipWith q E' (T A) h e = fun j => applySpec E' (fun j => applySpec E' (T A) j + K1' (T A) j / 6 + K2' (T A) j / 3 + K3' (T A) j / 3) j
      + K4' (T A) j / 6 := rfl
  rw [e1, e2, a6, hs, a3, a3, a6, hs, hK1, hK2, hK3, hK4]

theorem Moves.adv (hT : Moves p q d e T) (h : ℝ) (A : Fin n → ℂ) : T (Spec.adv p d h A) = Spec.adv q e h (T A) := by
  unfold Spec.adv
  rw [hT.method]
  rcases hm : p.method with _ | _
  · obtain ⟨rfl, hk⟩ := hT.kick hm
    simp only
    split_ifs with hd
    · rw [hk, hT.spec]
    · rw [hT.spec, hk]
  · exact hT.rk4ip _ _

theorem Moves.richardson (hT : Moves p q d e T) (eta : ℝ) (x y : Fin n → ℂ) : T (richardson eta x y) = richardson eta (T x) (T y) := by
  unfold PyNLO.Ssfm.richardson
  split_ifs
  · have := hT.sub2 (4 / 3) (1 / 3) x y
    push_cast at this
    exact this
  · have := hT.sub2 (16 / 15) (1 / 15) x y
    push_cast at this
    exact this
  · exact hT.sub2 _ _ x y

theorem Sends.body (hT : Sends p q d e T) (c : Cfg) (eta : ℝ) (s : Spec.St n) :
    Spec.body c eta (Spec.adv q e) ⟨T s.A, s.iter, s.ctrl⟩ =
      ⟨T (Spec.body c eta (Spec.adv p d) s).A, (Spec.body c eta (Spec.adv p d) s).iter, (Spec.body c eta (Spec.adv p d) s).ctrl⟩ := by
  unfold Spec.body Spec.stErr
  simp only [← hT.toMoves.adv, hT.err]
  rcases ctrlBody c s.ctrl (.val (localErr (Spec.adv p d s.ctrl.dz (Spec.adv p d s.ctrl.dz s.A))
    (Spec.adv p d (2 * s.ctrl.dz) s.A))) with ⟨ok, ctrl⟩
  cases ok
  · rfl
  · simp only [hT.toMoves.richardson]

theorem Sends.run (hT : Sends p q d e T) (c : Cfg) (eta : ℝ) (s : Spec.St n) (k : ℕ) :
    Spec.run c eta (Spec.adv q e) ⟨T s.A, s.iter, s.ctrl⟩ k =
      ⟨T (Spec.run c eta (Spec.adv p d) s k).A, (Spec.run c eta (Spec.adv p d) s k).iter,
        (Spec.run c eta (Spec.adv p d) s k).ctrl⟩ := by
  induction k with
  | zero => rfl
  | succ k ih =>
    by_cases h : (Spec.run c eta (Spec.adv p d) s k).ctrl.dist > 0
    · rw [Spec.run_succ_pos h, Spec.run_succ_pos (by rw [ih]; exact h), ih, hT.body]
    · rw [Spec.run_succ_neg h, Spec.run_succ_neg (by rw [ih]; exact h), ih]

/-- the whole adaptive integration is sent to the other one, with the same steps -/
theorem Sends.integrate (hT : Sends p q d e T) (hp : p.Ok) (deltaZ : ℝ) {f g : Field n} (hdz : 0 < f.dz) (hA : g.A = T f.A)
    (hz : g.dz = f.dz) (hi : g.iter = f.iter) : ∃ f' g', integrate p deltaZ d f = some f' ∧
      integrate q deltaZ e g = some g' ∧ g'.A = T f'.A ∧ g'.dz = f'.dz ∧ g'.iter = f'.iter := by
  have hq : q.Ok := ⟨by rw [hT.dzMin]; exact hp.1, by rw [hT.eta]; exact hp.2⟩
  obtain ⟨f', ef, k, h1, h2, h3, h4⟩ := integrate_spec hp deltaZ d hdz
  obtain ⟨g', eg, hg⟩ := integrate_spec hq deltaZ e (f := g) (by rw [hz]; exact hdz)
  have hc : q.cfg = p.cfg := by
    unfold Params.cfg
    rw [hT.localError, hT.dzMin, hT.eta]
  rw [hA, hz, hi, hc, hT.eta] at hg
  have hr : Spec.Returns p.cfg p.eta (Spec.adv q e) deltaZ (T f.A) f.iter f.dz (T f'.A) f'.iter f'.dz := by
    have := hT.run p.cfg p.eta ⟨f.A, f.iter, ctrlStart f.dz deltaZ⟩ k
    refine ⟨k, ?_, ?_, ?_, ?_⟩
    all_goals simp only at this; rw [this]; simp only
    · exact h1
    · rw [h2]
    · exact h3
    · exact h4
  obtain ⟨q1, q2, q3⟩ := Spec.Returns.unique hg hr
  exact ⟨f', g', ef, eg, q1, q3, q2⟩

/-! ## instances -/

theorem norm2_mirror (A : Fin n → ℂ) : norm2 (mirror A) = norm2 A := by
  unfold norm2
  congr 1
  exact sum_mirror fun j => ‖A j‖ ^ 2

theorem norm2_conj (A : Fin n → ℂ) : norm2 (conjF A) = norm2 A := by
  unfold norm2
  simp only [conjF, RCLike.norm_conj]

theorem absSq_mirror (A : Fin n → ℂ) : absSq (mirror A) = mirror (absSq A) := rfl

theorem absSq_conj (A : Fin n → ℂ) : absSq (conjF A) = absSq A := by
  funext j
  simp only [absSq, conjF, RCLike.norm_conj]

theorem conjF_absSq (A : Fin n → ℂ) : conjF (absSq A) = absSq A := by
  funext j
  exact conj_ofReal _

/-- a circular shift in time, with the same parameters -/
theorem sends_roll (p : Params n) (s : ℤ) (d : ℝ) : Sends p p d d (roll s) where
  lin _ _ _ _ := rfl
  spec h A := (applySpec_roll _ A s).symm
  nl h A := by rw [nonlinear_roll]; rfl
  kick _ := ⟨rfl, fun h A => by unfold PyNLO.Ssfm.kick; rw [nonlinear_roll]; rfl⟩
  err h A := localErr_isometry (fun _ _ _ _ => rfl) (sym_roll p s).norm _ _
  method := rfl
  eta := rfl
  localError := rfl
  dzMin := rfl

/-- a constant phase, without self-steepening -/
theorem sends_phase {p : Params n} (hs : p.disableSS = true) {u : ℂ} (hu : ‖u‖ = 1) (d : ℝ) : Sends p p d d fun A j => u * A j where
  lin _ _ _ _ := by funext j; ring
  spec h A := (applySpec_smul _ A u).symm
  nl h A := by funext j; rw [nonlinear_phase hs hu]; ring
  kick _ := ⟨rfl, fun h A => by unfold PyNLO.Ssfm.kick; funext j; rw [nonlinear_phase hs hu]; ring⟩
  err h A := localErr_isometry (fun _ _ _ _ => by funext j; ring) (sym_phase hs hu).norm _ _
  method := rfl
  eta := rfl
  localError := rfl
  dzMin := rfl

/-- the mirror image in time, with mirrored spectra of dispersion, loss and response -/
theorem sends_mirror {p q : Params n} (hp : p.disableSS = true) (hq : q.disableSS = true) (hb : q.betas = mirror p.betas) (ha : q.alpha = mirror p.alpha)
    (hR : q.R = mirror p.R) (hg : q.gamma = p.gamma) (hm : q.method = p.method) (he : q.eta = p.eta) (hl : q.localError = p.localError)
    (hz : q.dzMin = p.dzMin) (d : ℝ) : Sends p q d d mirror := by
  have hN : ∀ A, nonlinear q (mirror A) = mirror (nonlinear p A) := fun A => by
    rw [nonlinear_eq, nonlinear_eq, if_pos hp, if_pos hq, absSq_mirror, hR, applySpec_mirror, hg]
    rfl
  refine ⟨⟨fun _ _ _ _ => rfl, fun h A => ?_, fun h A => by rw [hN]; rfl, fun _ => ⟨rfl, fun h A => by unfold PyNLO.Ssfm.kick; rw [hN]; rfl⟩,
    hm, he, hl, hz⟩, fun h A => localErr_isometry (fun _ _ _ _ => rfl) norm2_mirror _ _⟩
  rw [← applySpec_mirror, hb, ha]
  rfl

/-- the complex conjugate, in the other direction, with the loss negated -/
theorem sends_conj {p q : Params n} (hp : p.disableSS = true) (hq : q.disableSS = true) (hk : p.method = .rk4ip) (hb : q.betas = mirror p.betas)
    (ha : ∀ k, q.alpha k = -p.alpha (negIdx k)) (hR : q.R = mirror (conjF p.R)) (hg : q.gamma = p.gamma) (hm : q.method = p.method) (he : q.eta = p.eta)
    (hl : q.localError = p.localError) (hz : q.dzMin = p.dzMin) (d : ℝ) : Sends p q d (-d) conjF := by
  have hlin : ∀ (a b : ℝ) (x y : Fin n → ℂ), conjF (fun j => (a : ℂ) * x j + (b : ℂ) * y j) = fun j => (a : ℂ) * conjF x j + (b : ℂ) * conjF y j := fun a b x y => by
    funext j
    simp only [conjF, map_add, map_mul, conj_ofReal]
  have hN : ∀ A, nonlinear q (conjF A) = fun j => -(starRingEnd ℂ) (nonlinear p A j) := fun A => by
    rw [nonlinear_eq, nonlinear_eq, if_pos hp, if_pos hq, absSq_conj, hR, hg]
    funext j
    have h := congrFun (applySpec_conj p.R (absSq A)) j
    rw [conjF_absSq] at h
    rw [← h]
    simp only [conjF, one_mul, map_mul, conj_I, conj_ofReal]
    ring
  refine ⟨⟨hlin, fun h A => ?_, fun h A => ?_, fun h => absurd (h.symm.trans hk) (by decide), hm, he, hl, hz⟩, fun h A => localErr_isometry hlin norm2_conj _ _⟩
  · rw [applySpec_conj]
    congr 1
    funext k
    show (starRingEnd ℂ) (exp _) = exp _
    rw [← exp_conj, hb, ha]
    congr 1
    simp only [mirror, map_mul, map_sub, conj_ofReal, conj_I, map_div₀, map_ofNat]
    push_cast
    ring
  · rw [hN]
    funext j
    simp only [conjF, map_mul, conj_ofReal]
    push_cast
    ring

theorem adv_ne_zero {p : Params n} (hm : p.method = .ssfm) (d h : ℝ) {A : Fin n → ℂ} (hA : A ≠ 0) : Spec.adv p d h A ≠ 0 := by
  have h1 : ∀ (h : ℝ) {B : Fin n → ℂ}, B ≠ 0 → applySpec (Spec.halfStep p.betas p.alpha h d) B ≠ 0 := fun h B hB h0 => by
    refine hB ?_
    have := congrArg (applySpec fun k => (Spec.halfStep p.betas p.alpha h d k)⁻¹) h0
    rw [applySpec_applySpec] at this
    have e : (fun k => (Spec.halfStep p.betas p.alpha h d k)⁻¹ * Spec.halfStep p.betas p.alpha h d k) = fun _ => 1 := by
      funext k
      exact inv_mul_cancel₀ (exp_ne_zero _)
    rw [e, applySpec_one] at this
    rw [this]
    exact applySpec_zero _
  have h2 : ∀ (h : ℝ) {B : Fin n → ℂ}, B ≠ 0 → PyNLO.Ssfm.kick p B h d ≠ 0 := fun h B hB h0 => by
    refine hB (funext fun j => ?_)
    have := congrFun h0 j
    exact (mul_eq_zero.1 this).resolve_left (exp_ne_zero _)
  unfold Spec.adv
  rw [hm]
  simp only
  split_ifs
  · exact h2 _ (h1 _ hA)
  · exact h1 _ (h2 _ hA)

theorem adv_zero (p : Params n) (d h : ℝ) : Spec.adv p d h (fun _ => 0) = fun _ => 0 := by
  unfold Spec.adv
  cases p.method
  · simp only
    have : PyNLO.Ssfm.kick p (fun _ => 0) h d = fun _ => 0 := by
      unfold PyNLO.Ssfm.kick
      simp
    split_ifs
    · rw [applySpec_zero, this]
    · rw [this, applySpec_zero]
  · simp only
    unfold rk4ipWith
    simp [applySpec_zero]

theorem norm2_eq_zero {A : Fin n → ℂ} (h : norm2 A = 0) : A = 0 := by
  unfold norm2 at h
  rw [Real.sqrt_eq_zero (Finset.sum_nonneg fun _ _ => by positivity), Finset.sum_eq_zero_iff_of_nonneg fun _ _ => by positivity] at h
  funext j
  have := h j (Finset.mem_univ j)
  simpa using this

theorem localErr_scale {c : ℂ} (hc : c ≠ 0) {x : Fin n → ℂ} (y : Fin n → ℂ) (hx : x ≠ 0 ∨ y = x) :
    localErr (fun j => c * x j) (fun j => c * y j) = localErr x y := by
  have hn : ∀ z : Fin n → ℂ, norm2 (fun j => c * z j) = ‖c‖ * norm2 z := fun z => by
    unfold norm2
    simp only [norm_mul, mul_pow, ← Finset.mul_sum]
    rw [Real.sqrt_mul (by positivity), Real.sqrt_sq (norm_nonneg _)]
  have hd : (fun j => c * x j - c * y j) = fun j => c * (x j - y j) := by funext j; ring
  have hc' : ‖c‖ ≠ 0 := norm_ne_zero_iff.2 hc
  unfold localErr
  rw [hd, hn, hn]
  by_cases h0 : norm2 x = 0
  · have hxy : y = x := hx.resolve_left fun h => h (norm2_eq_zero h0)
    rw [h0, mul_zero, if_neg (by simp), if_neg (by simp), hxy]
    simp [norm2]
  · rw [if_pos (mul_ne_zero hc' h0), if_pos h0, mul_div_mul_left _ _ hc']

/-- a constant factor, with the nonlinear coefficient divided by its squared modulus -/
theorem moves_scale {p q : Params n} (hp : p.disableSS = true) (hq : q.disableSS = true) {c : ℂ} (hc : c ≠ 0) (hb : q.betas = p.betas) (ha : q.alpha = p.alpha)
    (hR : q.R = p.R) (hg : q.gamma = p.gamma / ‖c‖ ^ 2) (hm : q.method = p.method) (he : q.eta = p.eta)
    (hl : q.localError = p.localError) (hz : q.dzMin = p.dzMin) (d : ℝ) : Moves p q d d fun A j => c * A j := by
  have hc' : ((‖c‖ ^ 2 : ℝ) : ℂ) ≠ 0 := by
    rw [ne_eq, ofReal_eq_zero]
    exact pow_ne_zero 2 (norm_ne_zero_iff.2 hc)
  have hN : ∀ A, nonlinear q (fun j => c * A j) = nonlinear p A := fun A => by
    rw [nonlinear_eq, nonlinear_eq, if_pos hp, if_pos hq, hR, hg]
    have : absSq (fun j => c * A j) = fun j => ((‖c‖ ^ 2 : ℝ) : ℂ) * absSq A j := by
      funext j
      simp only [absSq, norm_mul, mul_pow]
      push_cast
      ring
    rw [this, applySpec_smul]
    funext j
    rw [ofReal_div]
    field_simp
  refine ⟨fun _ _ _ _ => by funext j; ring, fun h A => by rw [hb, ha]; exact (applySpec_smul _ A c).symm, fun h A => by funext j; rw [hN]; ring,
    fun _ => ⟨rfl, fun h A => by unfold PyNLO.Ssfm.kick; funext j; rw [hN]; ring⟩, hm, he, hl, hz⟩

/-- with the split-step method the trial fields never vanish, so that the error estimate does not depend on the factor -/
theorem Moves.sends_scale {p q : Params n} {d : ℝ} {c : ℂ} (hc : c ≠ 0) (hT : Moves p q d d fun A j => c * A j) (hm : p.method = .ssfm) :
    Sends p q d d fun A j => c * A j := by
  refine ⟨hT, fun h A => localErr_scale hc _ ?_⟩
  by_cases h0 : A = 0
  · right
    rw [h0]
    show Spec.adv p d (2 * h) (fun _ => 0) = Spec.adv p d h (Spec.adv p d h fun _ => 0)
    rw [adv_zero, adv_zero, adv_zero]
  · left
    exact adv_ne_zero hm _ _ (adv_ne_zero hm _ _ h0)

end PyNLO.Ssfm
