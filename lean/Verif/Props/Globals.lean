import Verif.Model.SsfmGlobals
import Verif.Props.SsfmProp

/-! # C138: the switch `PRE_FFTSHIFT` -/

namespace PyNLO

open Complex Ssfm Pulse

namespace Ssfm

variable {n : ℕ}

/-! ## arrays in natural order against shifted order -/

/-- the parameters in shifted order -/
def Params.sh (p : Params n) : Params n :=
  { p with betas := fftshift p.betas, alpha := fftshift p.alpha, omegas := fftshift p.omegas, R := fftshift p.R }

def Cache.sh (c : Cache n) : Cache n := { c with expD := fftshift c.expD }

def Loop.sh (s : Loop n) : Loop n := { s with A := fftshift s.A, cache := s.cache.sh }

def Field.sh (f : Field n) : Field n := { f with A := fftshift f.A, cache := f.cache.sh }

theorem sh_fwd (f : Bool) (x : Fin n → ℂ) : fftshift (Globals.fwd ⟨false, f⟩ x) = ifft (fftshift x) := fftshift_ifftshift _

theorem sh_bwd (f : Bool) (x : Fin n → ℂ) : fftshift (Globals.bwd ⟨false, f⟩ x) = fft (fftshift x) := fftshift_ifftshift _

theorem sh_applySpec (f : Bool) (E A : Fin n → ℂ) : fftshift (applySpecG ⟨false, f⟩ E A) = applySpec (fftshift E) (fftshift A) := by
  unfold applySpecG applySpec
  rw [sh_bwd, ← sh_fwd f A]
  rfl

theorem sh_deriv (f : Bool) (p : Params n) (A : Fin n → ℂ) : fftshift (derivG ⟨false, f⟩ p A) = deriv p.sh (fftshift A) := by
  unfold derivG deriv
  rw [sh_bwd]
  rfl

theorem sh_nonlinear (f : Bool) (p : Params n) (A : Fin n → ℂ) : fftshift (nonlinearG ⟨false, f⟩ p A) = nonlinear p.sh (fftshift A) := by
  have e0 : absSq (fftshift A) = fftshift (absSq A) := rfl
  have e1 : ∀ x : Fin n → ℂ, ifft (fftshift x) = fftshift (Globals.fwd ⟨false, f⟩ x) := fun x => (sh_fwd f x).symm
  have e2 : ∀ x : Fin n → ℂ, fft (fun k => p.sh.R k * fftshift x k) = fftshift (Globals.bwd ⟨false, f⟩ fun k => p.R k * x k) := fun x =>
    (sh_bwd f fun k => p.R k * x k).symm
  have e3 : ∀ x : Fin n → ℂ, deriv p.sh (fftshift x) = fftshift (derivG ⟨false, f⟩ p x) := fun x => (sh_deriv f p x).symm
  unfold nonlinear
  dsimp only
  rw [e0, e1, e2, e1 A, e3, e3, e1, e2]
  unfold nonlinearG
  dsimp only
  rw [show p.sh.disableSS = p.disableSS from rfl, show p.sh.gamma = p.gamma from rfl, show p.sh.w0 = p.w0 from rfl]
  generalize Globals.bwd ⟨false, f⟩ (fun k => p.R k * Globals.fwd ⟨false, f⟩ (absSq A) k) = x1
  generalize Globals.bwd ⟨false, f⟩ (fun k => p.R k * Globals.fwd ⟨false, f⟩ (derivG ⟨false, f⟩ p (Globals.fwd ⟨false, f⟩ (absSq A))) k) = x2
  generalize derivG ⟨false, f⟩ p (Globals.fwd ⟨false, f⟩ A) = x3
  split_ifs <;> rfl

/-- the four stages of `RK4IP` over a nonlinear term `N` and a linear step `S` -/
noncomputable def rkGen (N S : (Fin n → ℂ) → Fin n → ℂ) (A : Fin n → ℂ) : Fin n → ℂ :=
  let half : (Fin n → ℂ) → (Fin n → ℂ) → Fin n → ℂ := fun x y j => x j + y j / 2
  let k1 := S (N A)
  let k2 := N (half (S A) k1)
  let k3 := N (half (S A) k2)
  let k4 := N (S fun j => S A j + k3 j)
  fun j => S (fun j => S A j + k1 j / 6 + k2 j / 3 + k3 j / 3) j + k4 j / 6

theorem rkGen_sh {N S N' S' : (Fin n → ℂ) → Fin n → ℂ} (hN : ∀ x, N' (fftshift x) = fftshift (N x)) (hS : ∀ x, S' (fftshift x) = fftshift (S x))
    (A : Fin n → ℂ) : rkGen N' S' (fftshift A) = fftshift (rkGen N S A) := by
  have h2 : ∀ x y : Fin n → ℂ, (fun j => fftshift x j + fftshift y j / 2) = fftshift fun j => x j + y j / 2 := fun _ _ => rfl
  have h1 : ∀ x y : Fin n → ℂ, (fun j => fftshift x j + fftshift y j) = fftshift fun j => x j + y j := fun _ _ => rfl
  have h3 : ∀ x y z w : Fin n → ℂ, (fun j => fftshift x j + fftshift y j / 6 + fftshift z j / 3 + fftshift w j / 3) =
      fftshift fun j => x j + y j / 6 + z j / 3 + w j / 3 := fun _ _ _ _ => rfl
  have h4 : ∀ x y : Fin n → ℂ, (fun j => fftshift x j + fftshift y j / 6) = fftshift fun j => x j + y j / 6 := fun _ _ => rfl
  unfold rkGen
  dsimp only
  simp only [hN, hS, h1, h2, h3, h4]

theorem sh_rk4ip (f : Bool) (p : Params n) (E A : Fin n → ℂ) (h dir : ℝ) :
    fftshift (rk4ipG ⟨false, f⟩ p E A h dir) = rk4ipWith p.sh (fftshift E) (fftshift A) h dir := by
  have e1 : rk4ipG ⟨false, f⟩ p E A h dir = rkGen (fun x j => ((h * dir : ℝ) : ℂ) * nonlinearG ⟨false, f⟩ p x j * x j)
    (applySpecG ⟨false, f⟩ E) A := rfl
  have e2 : rk4ipWith p.sh (fftshift E) (fftshift A) h dir = rkGen (fun x j => ((h * dir : ℝ) : ℂ) * nonlinear p.sh x j * x j)
    (applySpec (fftshift E)) (fftshift A) := rfl
  rw [e1, e2]
  refine (rkGen_sh (fun x => ?_) (fun x => (sh_applySpec f E x).symm) A).symm
  rw [← sh_nonlinear f]
  rfl

theorem sh_kick (f : Bool) (p : Params n) (A : Fin n → ℂ) (dz dir : ℝ) :
    fftshift (kickG ⟨false, f⟩ p A dz dir) = kick p.sh (fftshift A) dz dir := by
  unfold kick kickG
  rw [← sh_nonlinear f]
  rfl

theorem sh_refresh (p : Params n) (h dir : ℝ) (c : Cache n) : (refresh p h dir c).sh = refresh p.sh h dir c.sh := by
  unfold refresh
  show Cache.sh (if c.lastH ≠ some h ∨ c.lastDir ≠ dir then _ else _) = if c.lastH ≠ some h ∨ c.lastDir ≠ dir then _ else _
  split_ifs <;> rfl

theorem sh_advance (f : Bool) (p : Params n) (A : Fin n → ℂ) (dz dir : ℝ) (c : Cache n) :
    advance p.sh (fftshift A) dz dir c.sh = (fftshift (advanceG ⟨false, f⟩ p A dz dir c).1, (advanceG ⟨false, f⟩ p A dz dir c).2.sh) := by
  have hl : ∀ x : Fin n → ℂ, linearStep p.sh (fftshift x) dz dir c.sh =
      (fftshift (linearStepG ⟨false, f⟩ p x dz dir c).1, (linearStepG ⟨false, f⟩ p x dz dir c).2.sh) := by
    intro x
    unfold linearStep linearStepG
    rw [← sh_refresh, sh_applySpec]
    rfl
  unfold advance advanceG
  show (match p.method with | .ssfm => _ | .rk4ip => _) = _
  rcases p.method with _ | _
  · dsimp only
    split_ifs
    · rw [hl]
      dsimp only
      rw [sh_kick]
    · rw [← sh_kick f, hl]
  · dsimp only
    rw [sh_rk4ip, ← sh_refresh]
    rfl

theorem norm2_sh (x : Fin n → ℂ) : norm2 (fftshift x) = norm2 x := by
  unfold norm2
  congr 1
  exact sum_roll _ fun j => ‖x j‖ ^ 2

theorem localErr_sh (x y : Fin n → ℂ) : localErr (fftshift x) (fftshift y) = localErr x y := by
  unfold localErr
  rw [norm2_sh, show (fun j => fftshift x j - fftshift y j) = fftshift fun j => x j - y j from rfl, norm2_sh]

theorem richardson_sh (eta : ℝ) (x y : Fin n → ℂ) : richardson eta (fftshift x) (fftshift y) = fftshift (richardson eta x y) := by
  unfold richardson
  split_ifs <;> rfl

theorem sh_loopBody (f : Bool) (p : Params n) (dir : ℝ) (s : Loop n) : loopBody p.sh dir s.sh = (loopBodyG ⟨false, f⟩ p dir s).sh := by
  unfold loopBody loopBodyG
  dsimp only [Loop.sh]
  rw [sh_advance f]
  dsimp only
  rw [sh_advance f]
  dsimp only
  rw [sh_advance f]
  dsimp only
  rw [localErr_sh, richardson_sh, show p.sh.cfg = p.cfg from rfl, show p.sh.eta = p.eta from rfl]
  rcases ctrlBody p.cfg s.ctrl _ with ⟨_ | _, c⟩ <;> rfl

theorem sh_loopRun (f : Bool) (p : Params n) (dir : ℝ) (s : Loop n) (k : ℕ) : loopRun p.sh dir s.sh k = (loopRunG ⟨false, f⟩ p dir s k).sh := by
  induction k with
  | zero => rfl
  | succ k ih =>
    unfold loopRun loopRunG
    rw [ih, sh_loopBody f]
    show (if (loopRunG ⟨false, f⟩ p dir s k).ctrl.dist > 0 then _ else _) = _
    split_ifs <;> rfl

open Classical in
theorem integrate_congr {run run' : ℕ → Loop n} (g : Loop n → Loop n) (hr : ∀ k, run' k = g (run k)) (hg : ∀ s, (g s).ctrl = s.ctrl)
    (F : Loop n → Field n) : (if h : ∃ k, ¬ (run' k).ctrl.dist > 0 then some (F (run' (Nat.find h))) else none) =
      if h : ∃ k, ¬ (run k).ctrl.dist > 0 then some (F (g (run (Nat.find h)))) else none := by
  obtain rfl : run' = fun k => g (run k) := funext hr
  have e : ∀ k, (¬ (g (run k)).ctrl.dist > 0) = ¬ (run k).ctrl.dist > 0 := fun k => by rw [hg]
  by_cases h : ∃ k, ¬ (run k).ctrl.dist > 0
  · have h' : ∃ k, ¬ (g (run k)).ctrl.dist > 0 := by simpa only [e] using h
    rw [dif_pos h, dif_pos h']
    have : Nat.find h' = Nat.find h := Nat.find_congr' (fun {k} => by rw [hg])
    rw [this]
  · have h' : ¬ ∃ k, ¬ (g (run k)).ctrl.dist > 0 := by simpa only [e] using h
    rw [dif_neg h, dif_neg h']

theorem sh_integrate (f : Bool) (p : Params n) (deltaZ dir : ℝ) (x : Field n) :
    integrate p.sh deltaZ dir x.sh = (integrateG ⟨false, f⟩ p deltaZ dir x).map Field.sh := by
  refine (integrate_congr Loop.sh (fun k => sh_loopRun f p dir (loopStart deltaZ x) k) (fun _ => rfl)
    fun s => ⟨s.A, s.cache, s.iter, ctrlExit s.ctrl⟩).trans ?_
  unfold integrateG
  split_ifs <;> rfl

/-! ## the shipped order -/

theorem on_fwd (f : Bool) (x : Fin n → ℂ) : Globals.fwd ⟨true, f⟩ x = ifft x := rfl

theorem on_bwd (f : Bool) (x : Fin n → ℂ) : Globals.bwd ⟨true, f⟩ x = fft x := rfl

theorem on_applySpec (f : Bool) (E A : Fin n → ℂ) : applySpecG ⟨true, f⟩ E A = applySpec E A := rfl

theorem on_deriv (f : Bool) (p : Params n) (A : Fin n → ℂ) : derivG ⟨true, f⟩ p A = deriv p A := rfl

theorem on_nonlinear (f : Bool) (p : Params n) (A : Fin n → ℂ) : nonlinearG ⟨true, f⟩ p A = nonlinear p A := by
  unfold nonlinear nonlinearG
  simp only [on_fwd, on_bwd, on_deriv]

theorem on_rk4ip (f : Bool) (p : Params n) (E A : Fin n → ℂ) (h dir : ℝ) : rk4ipG ⟨true, f⟩ p E A h dir = rk4ipWith p E A h dir := by
  unfold rk4ipWith rk4ipG
  simp only [on_applySpec, on_nonlinear]

theorem on_advance (f : Bool) (p : Params n) (A : Fin n → ℂ) (dz dir : ℝ) (c : Cache n) :
    advanceG ⟨true, f⟩ p A dz dir c = advance p A dz dir c := by
  unfold advance advanceG linearStep linearStepG kick kickG
  simp only [on_applySpec, on_nonlinear, on_rk4ip]
  rfl

theorem on_loopBody (f : Bool) (p : Params n) (dir : ℝ) (s : Loop n) : loopBodyG ⟨true, f⟩ p dir s = loopBody p dir s := by
  unfold loopBody loopBodyG
  simp only [on_advance]
  rfl

theorem on_loopRun (f : Bool) (p : Params n) (dir : ℝ) (s : Loop n) (k : ℕ) : loopRunG ⟨true, f⟩ p dir s k = loopRun p dir s k := by
  induction k with
  | zero => rfl
  | succ k ih =>
    unfold loopRun loopRunG
    rw [ih, on_loopBody]

theorem on_integrate (f : Bool) (p : Params n) (deltaZ dir : ℝ) (x : Field n) :
    integrateG ⟨true, f⟩ p deltaZ dir x = integrate p deltaZ dir x :=
  integrate_congr id (fun k => on_loopRun f p dir (loopStart deltaZ x) k) (fun _ => rfl) fun s => ⟨s.A, s.cache, s.iter, ctrlExit s.ctrl⟩

theorem on_load (f : Bool) (polyfit : Fiber.PolyFit) (spline : Fiber.Spline) (p : Pulse) (z : ℝ) (P : Params n) (F : FibObj) :
    loadFiberG ⟨true, f⟩ polyfit spline p z P F = loadFiber polyfit spline p z P F := rfl

theorem on_record (f : Bool) (s : Seg n) : recordG ⟨true, f⟩ s = record s := rfl

theorem on_segLoop (f : Bool) (polyfit : Fiber.PolyFit) (spline : Fiber.Spline) (p : Pulse) (reload : Bool) (deltaZ : ℝ) (m : ℕ) :
    ∀ (i : ℕ) (s : Seg n), segLoopG ⟨true, f⟩ polyfit spline p reload deltaZ m i s = segLoop polyfit spline p reload deltaZ m i s := by
  induction m with
  | zero => intro i s; rfl
  | succ m ih =>
    intro i s
    unfold segLoop segLoopG
    simp only [on_load, on_integrate, on_record, ih]
    rfl

theorem on_raman (pre : Bool) (o : Obj) (p : Pulse) (om : Fin p.n → ℝ) : ramanG ⟨pre, false⟩ o p om = ramanR o p := by
  unfold ramanG
  rcases ramanR o p with e | ⟨R, fR⟩
  · rfl
  · show (if o.disableRaman = false ∧ false = true then _ else _) = _
    rw [if_neg (by simp)]

theorem on_setup (o : Obj) (p : Pulse) (F : FibObj) : setupG ⟨true, false⟩ o p F = setup o p F := by
  unfold setup setupG
  simp only [on_raman]
  rfl

/-- C138: with the values in `global_variables.py` the solver is the one all other theorems are about. -/
theorem _root_.PyNLO.C138_shipped (polyfit : Fiber.PolyFit) (spline : Fiber.Spline) (o : Obj) (p : Pulse) (F : FibObj) (N : ℕ) (reload : Bool) :
    propagateG .shipped polyfit spline o p F N reload = propagate polyfit spline o p F N reload := by
  unfold propagate propagateG Globals.shipped
  simp only [on_setup, on_load, on_segLoop]
  rfl

/-! ## both orders -/

theorem pre_setup (f : Bool) (o : Obj) (p : Pulse) (F : FibObj) :
    setupG ⟨true, f⟩ o p F = (setupG ⟨false, f⟩ o p F).map fun q => (q.1.sh, fftshift q.2.1, q.2.2) := by
  unfold setupG
  rcases p.V_THz with e | V
  · rfl
  rcases h1 : fill p.n V with e | om
  · simp only [except_bind_ok, h1]; rfl
  rcases h2 : Fiber.getGain F.specs F.fib p with e | gain
  · simp only [except_bind_ok, h1]; rfl
  rcases h3 : fill p.n (gain.map (-1 * ·)) with e | al
  · simp only [except_bind_ok, h1, h3]; rfl
  have hR : ramanG ⟨true, f⟩ o p om = ramanG ⟨false, f⟩ o p om := rfl
  rcases h4 : ramanG ⟨false, f⟩ o p om with e | ⟨R, fR⟩
  · simp only [except_bind_ok, h1, h3, hR, h4]; rfl
  rcases h5 : fill p.n R with e | R'
  · simp only [except_bind_ok, h1, h3, hR, h4, h5]; rfl
  rcases h6 : p.AT with e | a
  · simp only [except_bind_ok, h1, h3, hR, h4, h5]; rfl
  rcases h7 : fill p.n a with e | A
  · simp only [except_bind_ok, h1, h3, hR, h4, h5, h7]; rfl
  simp only [except_bind_ok, h1, h3, hR, h4, h5, h7]
  rfl

theorem pre_load (f : Bool) (polyfit : Fiber.PolyFit) (spline : Fiber.Spline) (p : Pulse) (z : ℝ) (P : Params n) (F : FibObj) :
    loadFiberG ⟨true, f⟩ polyfit spline p z P.sh F =
      ((loadFiberG ⟨false, f⟩ polyfit spline p z P F).1.map Params.sh, (loadFiberG ⟨false, f⟩ polyfit spline p z P F).2) := by
  unfold loadFiberG
  rcases Fiber.getBetas polyfit spline F.specs p z F.fib with ⟨e | b, f'⟩
  · rfl
  dsimp only
  rcases betaArr n b with e | B
  · rfl
  rcases Fiber.getGamma f' z with e | γ
  · rfl
  simp only [except_bind_ok]
  rcases num γ with e | γ
  · rfl
  · rfl

/-- loop states of `propagate` in the two orders; the pulse under construction may hold different fields -/
structure Same (s t : Seg n) : Prop where
  P : t.P = s.P.sh
  F : t.F = s.F
  fld : t.fld = s.fld.sh
  AW : t.AW = s.AW
  AT : t.AT = s.AT
  out : ∃ b c : Fin n → ℂ, Holds s.out b ∧ t.out = { s.out with aw := some ⟨n, c⟩ }

/-- both runs do not end, both raise the same exception, or both end in related states -/
def SameRun : Option (Except PyErr (Seg n)) → Option (Except PyErr (Seg n)) → Prop
  | none, none => True
  | some (.error e), some (.error e') => e = e'
  | some (.ok s), some (.ok t) => Same s t
  | _, _ => False

theorem same_record {f : Bool} (he : n % 2 = 0) {s t : Seg n} (h : Same s t) :
    ∃ s' t', recordG ⟨false, f⟩ s = .ok s' ∧ recordG ⟨true, f⟩ t = .ok t' ∧ Same s' t' := by
  obtain ⟨b, c, hb, ht⟩ := h.out
  have hc : Holds t.out c := by rw [ht]; exact hb.update c
  have hA : t.fld.A = fftshift s.fld.A := by rw [h.fld]; rfl
  have e1 : recordG ⟨false, f⟩ s = .ok { s with fld := { s.fld with A := s.fld.A }, out := { s.out with aw := some ⟨n, fftT s.fld.A⟩ }, AW := s.AW ++ [⟨n, Globals.fwd ⟨false, f⟩ s.fld.A⟩], AT := s.AT ++ [⟨n, s.fld.A⟩] } := by
    unfold recordG
    dsimp only [Globals.unshift]
    rw [if_neg (by simp), if_neg (by simp), hb.setAT_eq]
    rfl
  have e2 := record_eq hc
  rw [hA, ifftshift_fftshift] at e2
  refine ⟨_, _, e1, e2, ?_⟩
  refine ⟨h.P, h.F, ?_, ?_, ?_, ?_⟩
  · show { t.fld with A := ifftshift s.fld.A } = Field.sh s.fld
    rw [h.fld, ← fftshift_eq_ifftshift he]
    rfl
  · show t.AW ++ _ = s.AW ++ _
    rw [h.AW]
    rfl
  · show t.AT ++ _ = s.AT ++ _
    rw [h.AT]
  · refine ⟨_, fftT (ifftshift s.fld.A), hb.update _, ?_⟩
    dsimp only
    rw [ht]

theorem same_segLoop {f : Bool} (he : n % 2 = 0) (polyfit : Fiber.PolyFit) (spline : Fiber.Spline) (p : Pulse) (reload : Bool) (deltaZ : ℝ)
    (m : ℕ) : ∀ (i : ℕ) {s t : Seg n}, Same s t →
      SameRun (segLoopG ⟨false, f⟩ polyfit spline p reload deltaZ m i s) (segLoopG ⟨true, f⟩ polyfit spline p reload deltaZ m i t) := by
  induction m with
  | zero => intro i s t h; exact h
  | succ m ih =>
    intro i s t h
    have hl : (if reload then loadFiberG ⟨true, f⟩ polyfit spline p (i * deltaZ) t.P t.F else (.ok t.P, t.F)) =
        ((if reload then loadFiberG ⟨false, f⟩ polyfit spline p (i * deltaZ) s.P s.F else (.ok s.P, s.F)).1.map Params.sh,
          (if reload then loadFiberG ⟨false, f⟩ polyfit spline p (i * deltaZ) s.P s.F else (.ok s.P, s.F)).2) := by
      rw [h.P, h.F]
      cases reload
      · rfl
      · exact pre_load f polyfit spline p _ s.P s.F
    unfold segLoopG
    rw [hl]
    rcases (if reload then loadFiberG ⟨false, f⟩ polyfit spline p (i * deltaZ) s.P s.F else (.ok s.P, s.F)) with ⟨e | P, F⟩
    · exact (rfl : e = e)
    · dsimp only [Except.map]
      rw [on_integrate, h.fld, sh_integrate f]
      rcases integrateG ⟨false, f⟩ P deltaZ 1 s.fld with _ | fld
      · trivial
      · dsimp only [Option.map_some]
        have h2 : Same { s with P := P, F := F, fld := fld } { t with P := P.sh, F := F, fld := fld.sh } :=
          ⟨rfl, rfl, rfl, h.AW, h.AT, h.out⟩
        obtain ⟨s', t', hs, ht, hst⟩ := same_record (f := f) he h2
        rw [hs, ht]
        exact ih (i + 1) hst

/-- C138: `PRE_FFTSHIFT` is a matter of speed only.  For every pulse on an even grid, every fibre, solver, number of steps and reload
flag, and whichever Raman switch is set, the two settings give the same positions, arrays, output pulse, solver and fibre state; the same exception; or both
never return. -/
theorem _root_.PyNLO.C138_prefftshift (polyfit : Fiber.PolyFit) (spline : Fiber.Spline) (f : Bool) (o : Obj) {p : Pulse} {a : Fin p.n → ℂ} (hp : Holds p a)
    (he : p.n % 2 = 0) (F : FibObj) (N : ℕ) (reload : Bool) :
    propagateG ⟨false, f⟩ polyfit spline o p F N reload = propagateG ⟨true, f⟩ polyfit spline o p F N reload := by
  unfold propagateG
  by_cases hN : N = 0
  · rw [if_pos hN, if_pos hN]
  rw [if_neg hN, if_neg hN, pre_setup f]
  rcases F.fib.length with _ | L
  · rfl
  rcases hc : createClonedPulse p with e | out
  · rfl
  rcases setupG ⟨false, f⟩ o p F with e | ⟨P, A, fR⟩
  · rfl
  simp only [except_bind_ok, Except.map]
  rw [pre_load f]
  rcases loadFiberG ⟨false, f⟩ polyfit spline p 0 P F with ⟨e | P, F1⟩
  · rfl
  dsimp only [Except.map]
  obtain ⟨hout, -, -⟩ := clone_holds hp hc
  have hs : Same (n := p.n) ⟨P, F1, ⟨A, ⟨none, 0, fun _ => 0⟩, o.iter, o.dz⟩, out, [], []⟩
      ⟨P.sh, F1, ⟨fftshift A, ⟨none, 0, fun _ => 0⟩, o.iter, o.dz⟩, out, [], []⟩ :=
    ⟨rfl, rfl, rfl, rfl, rfl, a, a, hout, by rw [← hout.field]⟩
  generalize (if N = 1 then L else 1 * (L / N) - 0 * (L / N)) = dZ
  have h := same_segLoop (f := f) he polyfit spline p reload dZ N 0 hs
  revert h
  generalize segLoopG ⟨false, f⟩ polyfit spline p reload dZ N 0 _ = x
  generalize segLoopG ⟨true, f⟩ polyfit spline p reload dZ N 0 _ = y
  intro h
  rcases x with _ | e | s <;> rcases y with _ | e' | t
  · rfl
  · exact h.elim
  · exact h.elim
  · exact h.elim
  · rw [show e = e' from h]
  · exact h.elim
  · exact h.elim
  · exact h.elim
  · dsimp only
    have h : Same s t := h
    obtain ⟨b, c, hb, ht⟩ := h.out
    have hc : Holds t.out c := by rw [ht]; exact hb.update c
    have e1 : Globals.unshift ⟨false, f⟩ s.fld.A = s.fld.A := rfl
    have e2 : Globals.unshift ⟨true, f⟩ t.fld.A = s.fld.A := by
      rw [h.fld]
      exact ifftshift_fftshift _
    rw [e1, e2, hb.setAT_eq, hc.setAT_eq, h.AW, h.AT, h.F, h.fld, ht]
    rfl

/-! ## odd grids -/

theorem off_record (f : Bool) {s : Seg n} {b : Fin n → ℂ} (hb : Holds s.out b) :
    recordG ⟨false, f⟩ s = .ok { s with fld := { s.fld with A := s.fld.A }, out := { s.out with aw := some ⟨n, fftT s.fld.A⟩ }, AW := s.AW ++ [⟨n, Globals.fwd ⟨false, f⟩ s.fld.A⟩], AT := s.AT ++ [⟨n, s.fld.A⟩] } := by
  unfold recordG
  dsimp only [Globals.unshift]
  rw [if_neg (by simp), if_neg (by simp), hb.setAT_eq]
  rfl

theorem off_segLoop {f : Bool} {polyfit : Fiber.PolyFit} {spline : Fiber.Spline} {p : Pulse} {reload : Bool} {deltaZ : ℝ} (m : ℕ) :
    ∀ (i : ℕ) {s s' : Seg n} {b : Fin n → ℂ}, Holds s.out b → segLoopG ⟨false, f⟩ polyfit spline p reload deltaZ m i s = some (.ok s') →
      (∃ b' : Fin n → ℂ, Holds s'.out b') ∧ (m ≠ 0 → s'.AT.getLast? = some ⟨n, s'.fld.A⟩) := by
  induction m with
  | zero =>
    intro i s s' b hb h
    obtain rfl : s = s' := Except.ok.inj (Option.some.inj h)
    exact ⟨⟨b, hb⟩, fun h => absurd rfl h⟩
  | succ m ih =>
    intro i s s' b hb h
    unfold segLoopG at h
    rcases hl : (if reload then loadFiberG ⟨false, f⟩ polyfit spline p (i * deltaZ) s.P s.F else (.ok s.P, s.F)) with ⟨e | P, F⟩
    · rw [hl] at h
      simp at h
    rw [hl] at h
    dsimp only at h
    rcases hi : integrateG ⟨false, f⟩ P deltaZ 1 s.fld with _ | fld
    · rw [hi] at h
      simp at h
    rw [hi] at h
    dsimp only at h
    rw [off_record f (s := { s with P := P, F := F, fld := fld }) (b := b) hb] at h
    dsimp only at h
    obtain ⟨h1, h2⟩ := ih (i + 1) (hb.update _) h
    refine ⟨h1, fun _ => ?_⟩
    by_cases hm : m = 0
    · subst hm
      have := Except.ok.inj (Option.some.inj h)
      rw [← this]
      simp
    · exact h2 hm

end Ssfm

/-- with the switch off, `pulse_out` is the last column on every grid, even or odd -/
theorem C138_off_output {polyfit : Fiber.PolyFit} {spline : Fiber.Spline} {f : Bool} {o o' : Obj} {p : Pulse} {a : Fin p.n → ℂ} (hp : Holds p a)
    {F F' : FibObj} {N : ℕ} {reload : Bool} {r : Result} (h : propagateG ⟨false, f⟩ polyfit spline o p F N reload = some (.ok (r, o', F'))) :
    r.AT.getLast?.map Except.ok = some r.out.AT := by
  unfold propagateG at h
  by_cases hN : N = 0
  · rw [if_pos hN] at h
    simp at h
  rw [if_neg hN] at h
  rcases hL : F.fib.length with _ | L
  · rw [hL] at h
    simp [Bind.bind, Except.bind] at h
  rcases hc : createClonedPulse p with e | out
  · rw [hL, hc] at h
    simp [Bind.bind, Except.bind] at h
  rcases hs : setupG ⟨false, f⟩ o p F with e | ⟨P, A, fR⟩
  · rw [hL, hc, hs] at h
    simp [Bind.bind, Except.bind] at h
  rw [hL, hc, hs] at h
  simp only [except_bind_ok] at h
  rcases hl : loadFiberG ⟨false, f⟩ polyfit spline p 0 P F with ⟨e | P, F1⟩
  · rw [hl] at h
    simp at h
  rw [hl] at h
  dsimp only at h
  obtain ⟨hout, -, -⟩ := clone_holds hp hc
  generalize (if N = 1 then L else 1 * (L / N) - 0 * (L / N)) = dZ at h
  rcases hg : segLoopG ⟨false, f⟩ polyfit spline p reload dZ N 0 ⟨P, F1, ⟨A, ⟨none, 0, fun _ => 0⟩, o.iter, o.dz⟩, out, [], []⟩ with _ | e | s
  · rw [hg] at h; simp at h
  · rw [hg] at h; simp at h
  rw [hg] at h
  dsimp only at h
  obtain ⟨⟨b, hb⟩, hlast⟩ := off_segLoop N 0 hout hg
  rw [hb.setAT_eq] at h
  simp only [Option.some.injEq, Except.ok.injEq, Prod.mk.injEq] at h
  rw [← h.1]
  dsimp only
  rw [hlast hN, (hb.update _).AT_eq, ifftT_fftT]
  rfl

/-- C138 fails on odd grids: the switch decides which pulse `propagate` returns (with it, the field is one sample off, see C43). -/
theorem C138_odd_refuted (polyfit : Fiber.PolyFit) (spline : Fiber.Spline) : ∃ (o : Obj) (p : Pulse) (F : FibObj) (a : Fin p.n → ℂ), Holds p a ∧
    propagateG ⟨false, false⟩ polyfit spline o p F 1 false ≠ propagateG ⟨true, false⟩ polyfit spline o p F 1 false := by
  obtain ⟨o, p, F, r, o', F', a, hp, h1, h2⟩ := C43_odd_refuted' polyfit spline
  refine ⟨o, p, F, a, hp, fun h => ?_⟩
  rw [show propagateG ⟨true, false⟩ polyfit spline o p F 1 false = _ from C138_shipped polyfit spline o p F 1 false, h1] at h
  exact h2 (C138_off_output hp h)

/-- C138 is not vacuous: a four-point pulse in a generated fibre goes through in both orders, with the same result. -/
theorem C138_nonvacuous (polyfit : Fiber.PolyFit) (spline : Fiber.Spline) : ∃ (p : Pulse) (a : Fin p.n → ℂ) (F : FibObj) (r : Result) (o' : Obj) (F' : FibObj),
    Holds p a ∧ p.n % 2 = 0 ∧ propagateG ⟨false, false⟩ polyfit spline Obj.default p F 2 false = some (.ok (r, o', F')) ∧
      propagateG ⟨true, false⟩ polyfit spline Obj.default p F 2 false = some (.ok (r, o', F')) := by
  have hp : Holds { gridPulse 4 with aw := some ⟨4, fun _ => 1⟩ } (fun _ : Fin 4 => (1 : ℂ)) := ⟨rfl, rfl, by norm_num, rfl⟩
  obtain ⟨r, o', F', h⟩ := C43_nonvacuous polyfit spline hp (by simp [gridPulse, Pulse.blank]) (le_of_eq_of_le (by rfl) (show 2 ≤ 4 by norm_num))
    (length := 1) (wl := 1) (gamma := 1) (gain := 0) (b := ⟨1, fun _ => 1⟩) (units := "") (label := "") (N := 2) one_ne_zero one_pos (by norm_num)
  have h2 := (C138_shipped polyfit spline _ _ _ 2 false).trans h
  refine ⟨_, _, _, r, o', F', hp, rfl, ?_, h2⟩
  exact (C138_prefftshift polyfit spline false Obj.default hp rfl _ 2 false).trans h2

end PyNLO
