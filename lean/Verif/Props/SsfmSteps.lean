import Verif.Lemmas.SsfmLog
import Verif.Props.SplitStep

/-!
# C160: accuracy is governed by the steps taken, whatever the tolerance
-/

namespace PyNLO.Ssfm

open Complex RK Filter Asymptotics Set Pulse
open scoped Topology ContDiff

section
variable {n : ℕ}

/-- some parameters that describe the equation -/
noncomputable def someParams (β : Fin n → ℝ) (g : ℝ) (R : Fin n → ℂ) (γ : ℝ) : Params n :=
  { betas := fftshift β, alpha := fun _ => -g, omegas := fun _ => 0, R := fftshift R, gamma := γ, w0 := 1, disableSS := true, method := .rk4ip,
    eta := 5, localError := 1, dzMin := 1 }

theorem someParams_describes (β : Fin n → ℝ) (g : ℝ) (R : Fin n → ℂ) (γ : ℝ) : Describes (someParams β g R γ) β g R γ := ⟨rfl, rfl, rfl, rfl, rfl⟩

theorem _root_.PyNLO.Describes.linPart_eq {P Q : Params n} {β : Fin n → ℝ} {g : ℝ} {R : Fin n → ℂ} {γ : ℝ} (h : Describes P β g R γ) (h' : Describes Q β g R γ) :
    linPart P 1 = linPart Q 1 := by
  unfold linPart
  rw [h.betas, h.alpha, h'.betas, h'.alpha]

theorem _root_.PyNLO.Describes.nonPart_eq {P Q : Params n} {β : Fin n → ℝ} {g : ℝ} {R : Fin n → ℂ} {γ : ℝ} (h : Describes P β g R γ) (h' : Describes Q β g R γ) :
    nonPart P 1 = nonPart Q 1 := by
  funext A j
  unfold nonPart
  rw [nonlinear_eq, nonlinear_eq, if_pos h.ss, if_pos h'.ss, h.resp, h.gamma, h'.resp, h'.gamma]

/-- order of the method: five with the extrapolation that belongs to it, four with any other -/
def Order (eta : ℝ) (q : ℕ) : Prop := eta = 5 ∧ q = 5 ∨ eta ≠ 1 ∧ q = 4

/-- The field after any list of accepted steps, for every set of parameters that describes the equation. -/
theorem steps_close {β : Fin n → ℝ} {g : ℝ} {R : Fin n → ℂ} {γ : ℝ} {eta : ℝ} {q : ℕ} (hq : Order eta q) {x b Λ : ℝ} (hx : x < 0) (hΛ : 0 ≤ Λ)
    (hb : Λ < b) {U : ℝ → Fin n → ℂ} (hU : Solves β g R γ x b U) :
    ∃ h1 > 0, ∃ C, 0 ≤ C ∧ ∀ P : Params n, Describes P β g R γ → P.method = .rk4ip → P.eta = eta → ∀ hm ∈ Ioc 0 h1, ∀ l : List ℝ,
      (∀ h ∈ l, 0 < h ∧ h ≤ hm) → span l ≤ Λ →
        ‖follow P.eta (Spec.adv P 1) (fftshift (U 0)) l - fftshift (U (span l))‖ ≤ C * hm ^ q := by
  set Q := someParams β g R γ with hQ
  have hd := someParams_describes β g R γ
  set Y : ℝ → Fin n → ℂ := fun z => fftshift (U z) with hY
  have hYd := hU.shift hd
  rw [← hQ] at hd hYd
  have hφ : ContDiff ℝ ∞ fun q : ℝ × (Fin n → ℂ) => ipStep (linPart Q 1) (nonPart Q 1) q.1 q.2 :=
    ipStep_contDiff _ (nonPart_contDiff hd.ss 1) contDiff_fst contDiff_snd
  have h00 : ∀ A, (fun q : ℝ × (Fin n → ℂ) => ipStep (linPart Q 1) (nonPart Q 1) q.1 q.2) (0, A) = A := fun A => ipStep_zero _ _ A
  obtain ⟨M, hM⟩ : ∃ M, ∀ z ∈ Icc 0 Λ, ‖Y z‖ ≤ M := by
    have hc : ContinuousOn Y (Icc 0 Λ) := fun z hz => (hYd z ⟨by linarith [hz.1], by linarith [hz.2]⟩).continuousAt.continuousWithinAt
    exact isCompact_Icc.exists_bound_of_continuousOn hc
  have finish : ∀ {α α' : ℝ} {m : ℕ}, α - α' = 1 → (∀ x y : Fin n → ℂ, richardson eta x y = α • x - α' • y) → q = m + 1 →
      (∃ C h0, 0 ≤ C ∧ 0 < h0 ∧ h0 ≤ 1 ∧ ∀ z ∈ Icc 0 Λ, ∀ h ∈ Icc 0 h0,
        ‖OneStep.double (fun q : ℝ × (Fin n → ℂ) => ipStep (linPart Q 1) (nonPart Q 1) q.1 q.2) α α' h (Y z) - Y (z + 2 * h)‖ ≤ C * h ^ (m + 2)) →
      ∃ h1 > 0, ∃ C, 0 ≤ C ∧ ∀ P : Params n, Describes P β g R γ → P.method = .rk4ip → P.eta = eta → ∀ hm ∈ Ioc 0 h1, ∀ l : List ℝ,
        (∀ h ∈ l, 0 < h ∧ h ≤ hm) → span l ≤ Λ →
          ‖follow P.eta (Spec.adv P 1) (fftshift (U 0)) l - fftshift (U (span l))‖ ≤ C * hm ^ q := by
    intro α α' m hα hr hqm hcons
    obtain ⟨h1, h1pos, C, hC, hclose⟩ := follow_close hφ h00 hα hΛ hcons hM
    refine ⟨h1, h1pos, C, hC, fun P hP hm he hmm hhm l hl hs => ?_⟩
    have e : Spec.adv P 1 = fun h A => ipStep (linPart Q 1) (nonPart Q 1) h A := by
      funext h A
      rw [adv_eq hm 1 h A, hP.linPart_eq hd, hP.nonPart_eq hd]
    rw [e, he, hqm]
    exact hclose eta hr hmm hhm l hl hs
  rcases hq with ⟨rfl, rfl⟩ | ⟨h1, rfl⟩
  · have hr : ∀ x y : Fin n → ℂ, richardson 5 x y = (16 / 15 : ℝ) • x - (1 / 15 : ℝ) • y := by
      intro x y
      unfold richardson
      rw [if_neg (by norm_num), if_pos rfl]
      funext j
      simp only [Pi.sub_apply, Pi.smul_apply, real_smul]
      push_cast
      rfl
    refine finish (m := 4) (by norm_num) hr rfl ?_
    obtain ⟨C1, h0, hC1, h0pos, h0le, cons⟩ := extra_consistent (nonPart_contDiff hd.ss 1) (fun _ _ => (nonPart_contDiff hd.ss 1).contDiffAt) hx hb hYd
    refine ⟨C1, h0, hC1, h0pos, h0le, fun z hz h hh => ?_⟩
    have := cons z hz h hh
    unfold extra at this
    exact this
  · obtain ⟨α, α', hα, -, hr⟩ := richardson_weights (n := n) h1
    exact finish (m := 3) hα hr rfl (double_ip_consistent (nonPart_contDiff hd.ss 1) hα hx hb hYd)

end

section
variable {polyfit : Fiber.PolyFit} {spline : Fiber.Spline} {p : Pulse} {β : Fin p.n → ℝ} {g γ : ℝ} {R : Fin p.n → ℂ}

/-- The steps `l i` a propagation of `N` segments accepted in segment `i`: starting from the field of the pulse, every segment runs the
step control with these accepted steps, every column is the field they produce. -/
def Took (P : Params p.n) (o : Obj) (L : ℝ) (N : ℕ) (A : Fin p.n → ℂ) (r : Result) (l : ℕ → List ℝ) : Prop :=
  ∃ S : ℕ → Field p.n, (S 0).A = A ∧ (S 0).dz = o.dz ∧ (∀ i < N, Accepts P (L / N) 1 (S i) (l i) (S (i + 1))) ∧
    r.AT = (List.range N).map fun i => (⟨p.n, ifftshift (S (i + 1)).A⟩ : Vec ℂ)

/-- C160: column `i` is the solution at the distance covered by the accepted steps, up to a constant times a power of the longest step.
The constant does not depend on the tolerance, the stored and minimal steps, the fibre object or the number of segments. -/
theorem C160_steps {a : Fin p.n → ℂ} (hp : Holds p a) (he : p.n % 2 = 0) (hcf : p.cf ≠ 0) {eta : ℝ} {q : ℕ} (hq : Order eta q) (heta : 0 < eta)
    {x b Λ : ℝ} (hx : x < 0) (hΛ : 0 ≤ Λ) (hb : Λ < b) {U : ℝ → Fin p.n → ℂ} (hU : Solves β g R γ x b U) (hU0 : p.AT = .ok ⟨p.n, U 0⟩) :
    ∃ h1 > 0, ∃ C, 0 ≤ C ∧ ∀ (o : Obj) (F : FibObj) (f1 : Fiber.Fib) (fR L : ℝ) (N : ℕ), Loads polyfit spline o p F f1 β g R γ fR →
      F.fib.length = some L → 0 < L → 1 ≤ N → o.method = .rk4ip → o.eta = eta → o.disableSS = true → 0 < o.dz → 0 < o.dzMin →
      ∃ r o' F' P l, propagate polyfit spline o p F N false = some (.ok (r, o', F')) ∧ Carries P o β g R γ ∧ Took P o L N (fftshift (U 0)) r l ∧
        ∀ hm ∈ Ioc 0 h1, (∀ i < N, ∀ h ∈ l i, h ≤ hm) → ∀ i < N, ∑ j ∈ Finset.range (i + 1), span (l j) ≤ Λ →
          ∃ v : Fin p.n → ℂ, r.AT[i]? = some ⟨p.n, v⟩ ∧ ∀ j, ‖v j - U (∑ j ∈ Finset.range (i + 1), span (l j)) j‖ ≤ C * hm ^ q := by
  obtain ⟨h1, h1pos, C, hC, hclose⟩ := steps_close hq hx hΛ hb hU
  refine ⟨h1, h1pos, C, hC, fun o F f1 fR L N h hL hpos hN hm hoe hss hdz hmin => ?_⟩
  obtain ⟨P0, P, hs, hl, hc, -⟩ := setup_carries hp h
  have hd : Describes P β g R γ := ⟨hc.betas, hc.alpha, hc.resp, hc.gamma, hc.ss.trans hss⟩
  have hA : U 0 = ifftT a := by
    rw [hp.AT_eq] at hU0
    have := Except.ok.inj hU0
    simp only [Vec.mk.injEq, heq_eq_eq, true_and] at this
    exact this.symm
  have hP : P.Ok := ⟨by rw [hc.dzMin]; exact hmin, by rw [hc.eta, hoe]; exact heta⟩
  obtain ⟨r, o', hr, -⟩ := C43_returns hN hL hpos hp hcf hs hl hdz hmin (by rw [hoe]; exact heta)
  obtain ⟨S, s1, s2, s3, s4⟩ := propagate_trace hr hp he hL hs hl
  have hNr : (0 : ℝ) < N := by exact_mod_cast hN
  obtain ⟨l, hacc⟩ := accepts_all hP (by positivity : 0 < L / N) 1 (by rw [s2]; exact hdz) s3
  refine ⟨r, o', _, P, l, hr, hc, ⟨S, by rw [s1, hA], s2, hacc, s4⟩, fun hmax hhm hle i hi hspan => ?_⟩
  refine ⟨ifftshift (S (i + 1)).A, by rw [s4]; simp [hi], fun j => ?_⟩
  have hf := follow_upTo hacc (i + 1) (by omega)
  rw [s1, ← hA] at hf
  have hcl := hclose P hd (hc.method.trans hm) (hc.eta.trans hoe) hmax hhm (upTo l (i + 1)) (fun y hy => by
    obtain ⟨k, hk, hyk⟩ := mem_upTo hy
    exact ⟨(hacc k (by omega)).pos y hyk, hle k (by omega) y hyk⟩) (by rw [span_upTo]; exact hspan)
  rw [← hf, span_upTo] at hcl
  have h2 := (norm_le_pi_norm ((S (i + 1)).A - fftshift (U (∑ j ∈ Finset.range (i + 1), span (l j)))) (rollIdx (-((p.n / 2 : ℕ) : ℤ)) j)).trans hcl
  have e : fftshift (U (∑ j ∈ Finset.range (i + 1), span (l j))) (rollIdx (-((p.n / 2 : ℕ) : ℤ)) j) = U (∑ j ∈ Finset.range (i + 1), span (l j)) j := by
    have := congrFun (ifftshift_fftshift (U (∑ j ∈ Finset.range (i + 1), span (l j)))) j
    simpa [ifftshift, roll] using this
  rw [Pi.sub_apply, e] at h2
  exact h2

/-- C160: if every segment is covered exactly, `n_steps` alone bounds the error, at any tolerance and any initial and minimal step. -/
theorem C160_tolerance {a : Fin p.n → ℂ} (hp : Holds p a) (he : p.n % 2 = 0) (hcf : p.cf ≠ 0) {eta : ℝ} {q : ℕ} (hq : Order eta q) (heta : 0 < eta)
    {x b L : ℝ} (hx : x < 0) (hL : 0 < L) (hb : L < b) {U : ℝ → Fin p.n → ℂ} (hU : Solves β g R γ x b U) (hU0 : p.AT = .ok ⟨p.n, U 0⟩) :
    ∃ (N0 : ℕ) (C : ℝ), ∀ (o : Obj) (F : FibObj) (f1 : Fiber.Fib) (fR : ℝ) (N : ℕ), Loads polyfit spline o p F f1 β g R γ fR →
      F.fib.length = some L → N0 ≤ N → o.method = .rk4ip → o.eta = eta → o.disableSS = true → 0 < o.dz → 0 < o.dzMin →
      ∃ r o' F' P l, propagate polyfit spline o p F N false = some (.ok (r, o', F')) ∧ Carries P o β g R γ ∧ Took P o L N (fftshift (U 0)) r l ∧
        ((∀ i < N, span (l i) = L / N) → ∀ i < N, ∃ v : Fin p.n → ℂ, r.AT[i]? = some ⟨p.n, v⟩ ∧ ∀ j, ‖v j - U ((i + 1) * (L / N)) j‖ ≤ C / N ^ q) := by
  obtain ⟨h1, h1pos, C, hC, hst⟩ := C160_steps (polyfit := polyfit) (spline := spline) hp he hcf hq heta hx hL.le hb hU hU0
  obtain ⟨N0, hN0⟩ := exists_nat_ge (L / 2 / h1)
  refine ⟨max N0 1, C * (L / 2) ^ q, fun o F f1 fR N h hFL hN hm hoe hss hdz hmin => ?_⟩
  have hN1 : 1 ≤ N := (le_max_right _ _).trans hN
  have hNr : (0 : ℝ) < N := by exact_mod_cast hN1
  obtain ⟨r, o', F', P, l, hr, hc, ht, hb'⟩ := hst o F f1 fR L N h hFL hL hN1 hm hoe hss hdz hmin
  refine ⟨r, o', F', P, l, hr, hc, ht, fun hspan i hi => ?_⟩
  have hsum : ∀ k ≤ N, ∑ j ∈ Finset.range k, span (l j) = k * (L / N) := by
    intro k hk
    rw [Finset.sum_congr rfl fun j hj => hspan j (by have := Finset.mem_range.1 hj; omega), Finset.sum_const, Finset.card_range, nsmul_eq_mul]
  obtain ⟨S, -, -, hacc, -⟩ := ht
  have hh : L / N / 2 ∈ Ioc 0 h1 := by
    refine ⟨by positivity, ?_⟩
    have : L / 2 / h1 ≤ N := hN0.trans (by exact_mod_cast (le_max_left _ _).trans hN)
    rw [div_le_iff₀ h1pos] at this
    rw [div_div, div_le_iff₀ (by positivity)]
    linarith
  obtain ⟨v, hv, hle⟩ := hb' (L / N / 2) hh (fun i hi y hy => by
    have := le_span (fun z hz => ((hacc i hi).pos z hz).le) hy
    rw [hspan i hi] at this
    linarith) i hi (by
      rw [hsum (i + 1) (by omega)]
      have h2 : ((i + 1 : ℕ) : ℝ) ≤ N := by exact_mod_cast hi
      calc ((i + 1 : ℕ) : ℝ) * (L / N) ≤ N * (L / N) := mul_le_mul_of_nonneg_right h2 (by positivity)
        _ = L := by field_simp)
  refine ⟨v, hv, fun j => ?_⟩
  have := hle j
  rw [hsum (i + 1) (by omega)] at this
  push_cast at this
  refine this.trans (le_of_eq ?_)
  rw [div_pow, div_pow, div_pow]
  field_simp

/-- C160: the accepted steps of a segment cover it, and exactly so if no positive remainder of at most twice the minimal step is left. -/
theorem C160_exact {n : ℕ} {P : Params n} (hP : P.Ok) {δ dir : ℝ} (hδ : 0 < δ) {f f' : Field n} (hdz : 0 < f.dz) {l : List ℝ} (h : Accepts P δ dir f l f') :
    δ ≤ span l ∧ ((∀ k, (ctrlRun P.cfg (estimates P δ dir f) (ctrlStart f.dz δ) k).1.dist ≤ 0 ∨
      2 * P.dzMin < (ctrlRun P.cfg (estimates P δ dir f) (ctrlStart f.dz δ) k).1.dist) → span l = δ) := by
  obtain ⟨s, lg, hr, rfl, -⟩ := h.log
  rw [← covered_eq_span]
  exact C38_distance_partial hP.cfg hdz hδ hr

/-- the accepted steps are determined -/
theorem Accepts.unique {n : ℕ} {P : Params n} {δ dir : ℝ} {f f' f'' : Field n} {l l' : List ℝ} (h : Accepts P δ dir f l f')
    (h' : Accepts P δ dir f l' f'') : l = l' ∧ f' = f'' := by
  obtain ⟨s, lg, ⟨k, hk, hfin⟩, rfl, -⟩ := h.log
  obtain ⟨s', lg', ⟨k', hk', hfin'⟩, rfl, -⟩ := h'.log
  have h1 := ctrlRun_stable (c := P.cfg) (err := estimates P δ dir f) (s := ctrlStart f.dz δ) (k := k) (by rw [hk]; exact hfin) k'
  have h2 := ctrlRun_stable (c := P.cfg) (err := estimates P δ dir f) (s := ctrlStart f.dz δ) (k := k') (by rw [hk']; exact hfin') k
  rw [add_comm, h2, hk, hk'] at h1
  simp only [Prod.mk.injEq] at h1
  refine ⟨by rw [h1.2], ?_⟩
  have := h.returns
  rw [h'.returns] at this
  exact (Option.some.inj this).symm

/-- Exact covering happens: a segment shorter than twice the stored step whose first estimate is tolerated is done in one step. -/
theorem C160_nonvacuous {n : ℕ} {P : Params n} (hP : P.Ok) {δ dir : ℝ} (hδ : 0 < δ) {f : Field n} (hdz : δ < 2 * f.dz)
    (hle : localErr (Spec.adv P dir (δ / 2) (Spec.adv P dir (δ / 2) f.A)) (Spec.adv P dir (2 * (δ / 2)) f.A) ≤ 2 * P.localError) :
    ∃ f' l, Accepts P δ dir f l f' ∧ l = [δ / 2] ∧ span l = δ := by
  obtain ⟨f', l, h⟩ := accepts_exists hP hδ dir (f := f) (by linarith)
  have hs : (ctrlStart f.dz δ).dz = δ / 2 := by
    unfold ctrlStart
    rw [if_pos hdz]
  have hl : l = [δ / 2] := by
    obtain ⟨s, lg, ⟨k, hk, hfin⟩, rfl, -⟩ := h.log
    obtain ⟨s', k', hk', hfin'⟩ := C38_single_step (c := P.cfg) hδ hdz (estimates P δ dir f) (by
      show ¬ Spec.stErr (Spec.adv P dir) ⟨f.A, f.iter, ctrlStart f.dz δ⟩ > 2 * P.localError
      unfold Spec.stErr
      simp only [hs]
      exact not_lt.2 hle)
    have h1 := ctrlRun_stable (c := P.cfg) (err := estimates P δ dir f) (s := ctrlStart f.dz δ) (k := k) (by rw [hk]; exact hfin) k'
    have h2 := ctrlRun_stable (c := P.cfg) (err := estimates P δ dir f) (s := ctrlStart f.dz δ) (k := k') (by rw [hk']; exact hfin') k
    rw [add_comm, h2, hk, hk'] at h1
    simp only [Prod.mk.injEq] at h1
    rw [← h1.2]
    rfl
  refine ⟨f', l, h, hl, ?_⟩
  rw [hl]
  simp only [span_cons, span_nil]
  ring

end

end PyNLO.Ssfm
