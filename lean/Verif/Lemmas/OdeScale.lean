import Mathlib.Algebra.BigOperators.Field
import Mathlib.Algebra.Module.LinearMap.Basic
import Verif.Model.Ode

/-!
# The integrator in other units

The variable is multiplied by `l ≠ 0`, the unknown is mapped by a real-linear map that multiplies the modulus of every component by `c > 0`: units, phases, conjugation.
-/

namespace PyNLO.Ode

variable {n : ℕ}

theorem runLoop_map {σ ρ σ' ρ' : Type _} {body : σ → σ ⊕ ρ} {body' : σ' → σ' ⊕ ρ'} (φ : σ → σ') (ψ : ρ → ρ') (h : ∀ s, body' (φ s) = (body s).map φ ψ) (s : σ) :
    runLoop body' (φ s) = (runLoop body s).map ψ := by
  rcases runLoop_rel (body := body) (body' := body') (R := fun s t => t = φ s) (Q := fun r r' => r' = ψ r) (fun s t e => by
    subst e
    rcases hb : body s with s' | r
    · exact Or.inl ⟨s', _, rfl, by rw [h, hb]; rfl, rfl⟩
    · exact Or.inr ⟨r, _, rfl, by rw [h, hb]; rfl, rfl⟩) (s := s) rfl with ⟨h1, h2⟩ | ⟨r, r', h1, h2, h3⟩
  · rw [h1, h2]; rfl
  · rw [h1, h2, h3]; rfl

/-- a change of units: the variable, the unknown and its derivative -/
structure Units (n : ℕ) where
  l : ℝ
  c : ℝ
  U : V n →ₗ[ℝ] V n
  l0 : l ≠ 0
  c0 : 0 < c
  norm : ∀ y i, ‖U y i‖ = c * ‖y i‖

namespace Units

variable (u : Units n)

/-- the derivative in the new units -/
noncomputable def D : V n →ₗ[ℝ] V n := u.l⁻¹ • u.U

theorem smul_D (h : ℝ) (v : V n) : (u.l * h) • u.D v = u.U (h • v) := by
  rw [D, LinearMap.smul_apply, smul_smul, show u.l * h * u.l⁻¹ = h by rw [mul_comm, ← mul_assoc, inv_mul_cancel₀ u.l0, one_mul], map_smul]

theorem norm_D (v : V n) (i : Fin n) : ‖u.D v i‖ = u.c * ‖v i‖ / |u.l| := by
  rw [D, LinearMap.smul_apply, Pi.smul_apply, norm_smul, u.norm, norm_inv, Real.norm_eq_abs, div_eq_inv_mul]

/-- the same equation in the new units -/
def Eqn (f g : Rhs n) : Prop := ∀ x y, g (u.l * x) (u.U y) = u.D (f x y)

theorem Eqn.key {u : Units n} {f g : Rhs n} (e : u.Eqn f g) (x : ℝ) (y : V n) (h c : ℝ) (v : V n) :
    g (u.l * x + c * (u.l * h)) (u.U y + (u.l * h) • u.D v) = u.D (f (x + c * h) (y + h • v)) := by
  rw [u.smul_D, ← map_add, ← e, show u.l * x + c * (u.l * h) = u.l * (x + c * h) by ring]

noncomputable def stages (st : Stages n) : Stages n where
  k2 := u.D st.k2
  k3 := u.D st.k3
  k6 := u.D st.k6
  k7 := u.D st.k7
  k8 := u.D st.k8
  k9 := u.D st.k9
  k10 := u.D st.k10
  yout := u.U st.yout
  yerr := u.D st.yerr
  yerr2 := u.D st.yerr2

theorem Eqn.dy {u : Units n} {f g : Rhs n} (e : u.Eqn f g) (x : ℝ) (y d : V n) (h : ℝ) :
    dy g (u.l * x) (u.U y) (u.D d) (u.l * h) = u.stages (dy f x y d h) := by
  have key0 := e.key x y h
  have key : ∀ c v, g (u.l * x + c * (u.l * h)) (u.U y + u.D ((u.l * h) • v)) = u.D (f (x + c * h) (y + h • v)) := fun c v => by
    rw [map_smul]
    exact key0 c v
  unfold PyNLO.Ode.dy
  extract_lets k2 k3 k4 k5 k6 k7 k8 k9 k10 k11 k12 inc K2 K3 K4 K5 K6 K7 K8 K9 K10 K11 K12 INC
  have h2 : k2 = u.D K2 := by
    show g _ (u.U y + (u.l * h * dc.a21) • u.D d) = u.D (f _ (y + (h * dc.a21) • d))
    rw [mul_smul (u.l * h) dc.a21, mul_smul h dc.a21, ← map_smul u.D dc.a21, key0]
  have h3 : k3 = u.D K3 := by simp only [k3, K3, h2, ← map_smul, ← map_add, key]
  have h4 : k4 = u.D K4 := by simp only [k4, K4, h3, ← map_smul, ← map_add, key]
  have h5 : k5 = u.D K5 := by simp only [k5, K5, h3, h4, ← map_smul, ← map_add, key]
  have h6 : k6 = u.D K6 := by simp only [k6, K6, h4, h5, ← map_smul, ← map_add, key]
  have h7 : k7 = u.D K7 := by simp only [k7, K7, h4, h5, h6, ← map_smul, ← map_add, key]
  have h8 : k8 = u.D K8 := by simp only [k8, K8, h4, h5, h6, h7, ← map_smul, ← map_add, key]
  have h9 : k9 = u.D K9 := by simp only [k9, K9, h4, h5, h6, h7, h8, ← map_smul, ← map_add, key]
  have h10 : k10 = u.D K10 := by simp only [k10, K10, h4, h5, h6, h7, h8, h9, ← map_smul, ← map_add, key]
  have h11 : k11 = u.D K11 := by simp only [k11, K11, h4, h5, h6, h7, h8, h9, h10, ← map_smul, ← map_add, key]
  have key1 := fun v => key 1 v
  simp only [one_mul] at key1
  have h12 : k12 = u.D K12 := by simp only [k12, K12, h4, h5, h6, h7, h8, h9, h10, h11, ← map_smul, ← map_add, key1]
  have hi : inc = u.D INC := by simp only [inc, INC, h6, h7, h8, h9, h10, h11, h12, ← map_smul, ← map_add]
  simp only [stages, Stages.mk.injEq]
  refine ⟨h11, h12, h6, h7, h8, h9, h10, ?_, ?_, ?_⟩
  · rw [hi, u.smul_D, ← map_add]
  · simp only [hi, h9, h12, ← map_smul, ← map_sub]
  · simp only [h6, h7, h8, h9, h10, h11, h12, ← map_smul, ← map_add]

theorem errScale (atol rtol : ℝ) (y yout : V n) (i : Fin n) :
    errScale (u.c * atol) rtol (u.U y) (u.U yout) i = u.c * Ode.errScale atol rtol y yout i := by
  unfold Ode.errScale
  rw [u.norm, u.norm, ← mul_max_of_nonneg _ _ u.c0.le]
  ring

theorem errSum (sk : Fin n → ℝ) (e : V n) : errSum (fun i => u.c * sk i) (u.D e) = Ode.errSum sk e / u.l ^ 2 := by
  unfold Ode.errSum
  rw [Finset.sum_div]
  refine Finset.sum_congr rfl fun i _ => ?_
  rw [u.norm_D, ← sq_abs u.l, ← div_pow, div_div, mul_comm |u.l|, mul_assoc, mul_div_mul_left _ _ u.c0.ne', div_div]

theorem error (atol rtol : ℝ) (y : V n) (st : Stages n) (h : ℝ) :
    error (u.c * atol) rtol (u.U y) (u.stages st) (u.l * h) = Ode.error atol rtol y st h := by
  have l2 : 0 < u.l ^ 2 := by have := u.l0; positivity
  unfold Ode.error
  simp only
  have hs : Ode.errScale (u.c * atol) rtol (u.U y) (u.stages st).yout = fun i => u.c * Ode.errScale atol rtol y st.yout i := funext fun i => u.errScale atol rtol y st.yout i
  rw [hs]
  set sk := Ode.errScale atol rtol y st.yout
  rw [show (u.stages st).yerr = u.D st.yerr from rfl, show (u.stages st).yerr2 = u.D st.yerr2 from rfl, u.errSum, u.errSum]
  have n1 : 0 ≤ Ode.errSum sk st.yerr := Finset.sum_nonneg fun i _ => sq_nonneg _
  have n2 : 0 ≤ Ode.errSum sk st.yerr2 := Finset.sum_nonneg fun i _ => sq_nonneg _
  set a := Ode.errSum sk st.yerr
  set b := Ode.errSum sk st.yerr2
  rw [if_neg (not_lt.2 (by positivity : 0 ≤ b / u.l ^ 2 + 0.01 * (a / u.l ^ 2))), if_neg (not_lt.2 (by positivity : 0 ≤ b + 0.01 * a))]
  have hz : (∃ i, u.c * sk i = 0) ↔ ∃ i, sk i = 0 := by simp [u.c0.ne']
  have hd : (b / u.l ^ 2 + 0.01 * (a / u.l ^ 2)) * n = (b + 0.01 * a) * n / u.l ^ 2 := by ring
  have hz2 : (b + 0.01 * a) * n / u.l ^ 2 = 0 ↔ (b + 0.01 * a) * n = 0 := by
    rw [div_eq_zero_iff, or_iff_left l2.ne']
  simp only [hd, hz, hz2]
  split_ifs
  · rfl
  · congr 2
    rw [one_div_div, abs_mul, abs_div, abs_of_pos l2, show u.l ^ 2 / ((b + 0.01 * a) * n) = |u.l| ^ 2 * (1 / ((b + 0.01 * a) * n)) by rw [sq_abs]; ring,
      Real.sqrt_mul (by positivity), Real.sqrt_sq (abs_nonneg _), ← sq_abs u.l]
    have := abs_pos.2 u.l0
    field_simp

noncomputable def flt : Flt → Flt
  | .nan => .nan
  | .val x => .val (u.l * x)

noncomputable def con (c : Con) : Con := ⟨u.l * c.hnext, c.errold, c.reject⟩

noncomputable def trial (t : Trial) : Trial := ⟨u.flt t.h, u.con t.con⟩

noncomputable def stepRes (r : Except PyErr ℝ × Con) : Except PyErr ℝ × Con := (r.1.map (u.l * ·), u.con r.2)

theorem stepBody {fl fl' : ℝ → ℝ} (hfl : ∀ x, fl' (u.l * x) = u.l * fl x) {e e' : ℝ → Flt} (he : ∀ h, e' (u.l * h) = e h) (x : ℝ) (t : Trial) :
    stepBody fl' e' (u.l * x) (u.trial t) = (Ode.stepBody fl e x t).map u.trial u.stepRes := by
  have hl := abs_pos.2 u.l0
  obtain ⟨h, c⟩ := t
  rcases h with _ | h
  · rfl
  unfold Ode.stepBody
  simp only [trial, flt, he, success]
  rcases e h with _ | err
  · rfl
  simp only
  by_cases h1 : err ≤ 1
  · simp only [if_pos h1, Sum.map_inr, stepRes, con, Except.map]
    obtain ⟨hn, eo, rj⟩ := c
    cases rj <;> simp only [Bool.false_eq_true, if_false, if_true, mul_assoc]
  · simp only [if_neg h1, mul_assoc, hfl, abs_mul, mul_le_mul_iff_right₀ hl]
    split_ifs <;> rfl

theorem stepLoop {fl fl' : ℝ → ℝ} (hfl : ∀ x, fl' (u.l * x) = u.l * fl x) {e e' : ℝ → Flt} (he : ∀ h, e' (u.l * h) = e h) (x htry : ℝ) (c : Con) :
    stepLoop fl' e' (u.l * x) (u.l * htry) (u.con c) = (Ode.stepLoop fl e x htry c).map u.stepRes :=
  runLoop_map u.trial u.stepRes (fun t => u.stepBody hfl he x t) ⟨.val htry, c⟩

noncomputable def stepper (s : Stepper n) : Stepper n :=
  ⟨u.l * s.x, u.l * s.xold, u.l * s.hdid, u.l * s.hnext, u.U s.y, u.D s.dydx, fun i => u.U (s.rc i)⟩

/-- a problem and the same problem in the new units -/
structure Same (p q : Prob n) : Prop where
  f : u.Eqn p.f q.f
  atol : q.atol = u.c * p.atol
  rtol : q.rtol = p.rtol
  dense : q.dense = p.dense
  fl : ∀ x, q.fl (u.l * x) = u.l * p.fl x

variable {u} {p q : Prob n}

theorem Eqn.prepareDense {f g : Rhs n} (e : u.Eqn f g) (x : ℝ) (y d d' : V n) (st : Stages n) (h : ℝ) :
    prepareDense g (u.l * x) (u.U y) (u.D d) (u.D d') (u.stages st) (u.l * h) = fun i => u.U (Ode.prepareDense f x y d d' st h i) := by
  have key0 := e.key x y h
  have key : ∀ c v, g (u.l * x + c * (u.l * h)) (u.U y + u.D ((u.l * h) • v)) = u.D (f (x + c * h) (y + h • v)) := fun c v => by
    rw [map_smul]
    exact key0 c v
  have out : ∀ v, u.D ((u.l * h) • v) = u.U (h • v) := fun v => by rw [map_smul, u.smul_D]
  generalize hr : Ode.prepareDense f x y d d' st h = r
  unfold Ode.prepareDense at hr ⊢
  extract_lets YDIFF BSPL R5 R6 R7 R8 K14 K15 K16 at hr
  extract_lets ydiff bspl r5 r6 r7 r8 k14 k15 k16
  subst hr
  have hy : ydiff = u.U YDIFF := (map_sub u.U _ _).symm
  have hb : bspl = u.U BSPL := by
    show (u.l * h) • u.D d - ydiff = u.U (h • d - YDIFF)
    rw [u.smul_D, hy]
    exact (map_sub u.U (h • d) YDIFF).symm
  have h5 : r5 = u.D R5 := by simp only [r5, R5, stages, ← map_smul, ← map_add]
  have h6 : r6 = u.D R6 := by simp only [r6, R6, stages, ← map_smul, ← map_add]
  have h7 : r7 = u.D R7 := by simp only [r7, R7, stages, ← map_smul, ← map_add]
  have h8 : r8 = u.D R8 := by simp only [r8, R8, stages, ← map_smul, ← map_add]
  have h14 : k14 = u.D K14 := by simp only [k14, K14, stages, ← map_smul, ← map_add, key]
  have h15 : k15 = u.D K15 := by simp only [k15, K15, h14, stages, ← map_smul, ← map_add, key]
  have h16 : k16 = u.D K16 := by simp only [k16, K16, h14, h15, stages, ← map_smul, ← map_add, key]
  funext i
  fin_cases i
  · rfl
  · exact hy
  · exact hb
  · show ydiff - (u.l * h) • u.D d' - bspl = u.U (YDIFF - h • d' - BSPL)
    rw [u.smul_D, hy, hb]
    exact ((map_sub u.U (YDIFF - h • d') BSPL).trans (congrArg (· - u.U BSPL) (map_sub u.U YDIFF (h • d')))).symm
  · show (u.l * h) • (r5 + dc.d413 • u.D d' + dc.d414 • k14 + dc.d415 • k15 + dc.d416 • k16) = u.U (h • (R5 + dc.d413 • d' + dc.d414 • K14 + dc.d415 • K15 + dc.d416 • K16))
    simp only [h5, h14, h15, h16, ← map_smul u.D, ← map_add u.D, out]
  · show (u.l * h) • (r6 + dc.d513 • u.D d' + dc.d514 • k14 + dc.d515 • k15 + dc.d516 • k16) = u.U (h • (R6 + dc.d513 • d' + dc.d514 • K14 + dc.d515 • K15 + dc.d516 • K16))
    simp only [h6, h14, h15, h16, ← map_smul u.D, ← map_add u.D, out]
  · show (u.l * h) • (r7 + dc.d613 • u.D d' + dc.d614 • k14 + dc.d615 • k15 + dc.d616 • k16) = u.U (h • (R7 + dc.d613 • d' + dc.d614 • K14 + dc.d615 • K15 + dc.d616 • K16))
    simp only [h7, h14, h15, h16, ← map_smul u.D, ← map_add u.D, out]
  · show (u.l * h) • (r8 + dc.d713 • u.D d' + dc.d714 • k14 + dc.d715 • k15 + dc.d716 • k16) = u.U (h • (R8 + dc.d713 • d' + dc.d714 • K14 + dc.d715 • K15 + dc.d716 • K16))
    simp only [h8, h14, h15, h16, ← map_smul u.D, ← map_add u.D, out]

theorem denseOut (s : Stepper n) (x h : ℝ) : denseOut (u.stepper s) (u.l * x) (u.l * h) = u.U (Ode.denseOut s x h) := by
  unfold Ode.denseOut
  have ht : (u.l * x - (u.stepper s).xold) / (u.l * h) = (x - s.xold) / h := by
    show (u.l * x - u.l * s.xold) / (u.l * h) = _
    rw [← mul_sub, mul_div_mul_left _ _ u.l0]
  simp only [ht]
  simp only [stepper, ← map_smul, ← map_add]

theorem Same.step (e : u.Same p q) (s : Stepper n) (htry : ℝ) (c : Con) :
    step q (u.stepper s) (u.l * htry) (u.con c) = (Ode.step p s htry c).map fun r => (r.1, u.stepper r.2.1, u.con r.2.2) := by
  unfold Ode.step
  have hl := u.stepLoop e.fl (e := fun h => Ode.error p.atol p.rtol s.y (Ode.dy p.f s.x s.y s.dydx h) h)
    (e' := fun h => Ode.error q.atol q.rtol (u.stepper s).y (Ode.dy q.f (u.stepper s).x (u.stepper s).y (u.stepper s).dydx h) h) (fun h => by
      simp only [stepper, e.f.dy, e.atol, e.rtol, u.error]) s.x htry c
  rw [show (u.stepper s).x = u.l * s.x from rfl] at hl ⊢
  rw [hl]
  rcases Ode.stepLoop p.fl (fun h => Ode.error p.atol p.rtol s.y (Ode.dy p.f s.x s.y s.dydx h) h) s.x htry c with _ | ⟨_ | h, c'⟩
  · rfl
  · rfl
  · simp only [Option.map_some, stepRes, Except.map]
    have h1 : Ode.dy q.f (u.l * s.x) (u.stepper s).y (u.stepper s).dydx (u.l * h) = u.stages (Ode.dy p.f s.x s.y s.dydx h) := e.f.dy _ _ _ _
    have h2 : q.f (u.l * s.x + u.l * h) (u.stages (Ode.dy p.f s.x s.y s.dydx h)).yout = u.D (p.f (s.x + h) (Ode.dy p.f s.x s.y s.dydx h).yout) := by
      rw [← mul_add]
      exact e.f _ _
    rw [h1, h2]
    have h3 := e.f.prepareDense s.x s.y s.dydx (p.f (s.x + h) (Ode.dy p.f s.x s.y s.dydx h).yout) (Ode.dy p.f s.x s.y s.dydx h) h
    rw [show (u.stepper s).y = u.U s.y from rfl, show (u.stepper s).dydx = u.D s.dydx from rfl, h3, e.dense]
    simp only [stepper, con, mul_add, Option.some.injEq, Prod.mk.injEq, true_and, and_true, Stepper.mk.injEq]
    refine ⟨rfl, ?_⟩
    split_ifs <;> rfl

variable (u)

noncomputable def out (o : Out n) : Out n :=
  { o with x1 := u.l * o.x1, x2 := u.l * o.x2, xout := u.l * o.xout, dxout := u.l * o.dxout, buf := o.buf.map fun b => (b.1.map (u.l * ·), b.2.map u.U) }

noncomputable def outRes (r : Except PyErr Unit × Out n) : Except PyErr Unit × Out n := (r.1, u.out r.2)

theorem init (o : Out n) (a b : ℝ) : (u.out o).init (u.l * a) (u.l * b) = u.out (o.init a b) := by
  unfold Out.init
  rw [show (u.out o).kmax = o.kmax from rfl]
  by_cases hk : o.kmax = -1
  · rw [if_pos hk, if_pos hk]
  rw [if_neg hk, if_neg hk]
  obtain ⟨kmax, nsave, dense, count, x1, x2, xout, dxout, buf⟩ := o
  cases dense
  · show Out.mk _ _ _ _ _ _ _ _ _ = u.out (Out.mk kmax nsave false count x1 x2 xout dxout (some (List.replicate kmax.toNat 0, List.replicate kmax.toNat 0)))
    simp only [out, Option.map_some, List.map_replicate, mul_zero, map_zero]
  · show Out.mk _ _ _ _ _ _ _ _ _ = u.out (Out.mk kmax nsave true count a b a ((b - a) / nsave) (some (List.replicate kmax.toNat 0, List.replicate kmax.toNat 0)))
    simp only [out, Option.map_some, List.map_replicate, mul_zero, map_zero, ← mul_sub, mul_div_assoc]

theorem resize (o : Out n) : (u.out o).resize = u.out o.resize := by
  obtain ⟨kmax, nsave, dense, count, x1, x2, xout, dxout, _ | ⟨xs, ys⟩⟩ := o
  · rfl
  · simp only [Out.resize, out, Option.map_some, List.map_append, List.map_replicate, List.length_map, mul_zero, map_zero]

theorem store (o : Out n) (x : ℝ) (y : V n) : (u.out o).store (u.l * x) (u.U y) = u.outRes (o.store x y) := by
  obtain ⟨kmax, nsave, dense, count, x1, x2, xout, dxout, _ | ⟨xs, ys⟩⟩ := o
  · rfl
  · simp only [Out.store, out, outRes, Option.map_some, List.length_map]
    split_ifs
    · simp only [Option.map_some, List.map_set]
    · rfl

theorem saveDense (o : Out n) (x : ℝ) (y : V n) : (u.out o).saveDense (u.l * x) (u.U y) = u.outRes (o.saveDense x y) := by
  have key : ∀ o : Out n, (match (u.out o).buf with | none => (.error .AttributeError, u.out o) | some _ => (u.out o).store (u.l * x) (u.U y)) =
      u.outRes (match o.buf with | none => (.error .AttributeError, o) | some _ => o.store x y) := by
    intro o
    rcases hb : o.buf with _ | b
    · rw [show (u.out o).buf = none by simp only [out, hb, Option.map_none]]; rfl
    · rw [show (u.out o).buf = some (b.1.map (u.l * ·), b.2.map u.U) by simp only [out, hb, Option.map_some]]
      exact u.store o x y
  unfold Out.saveDense
  simp only
  rw [show (u.out o).kmax = o.kmax from rfl, show (u.out o).count = o.count from rfl, u.resize]
  by_cases h : (o.count : ℤ) = o.kmax
  · simp only [if_pos h]
    exact key _
  · simp only [if_neg h]
    exact key _

theorem save (o : Out n) (x : ℝ) (y : V n) : (u.out o).save (u.l * x) (u.U y) = u.outRes (o.save x y) := by
  unfold Out.save
  rcases hb : o.buf with _ | b
  · rw [show (u.out o).buf = none by simp only [out, hb, Option.map_none]]; rfl
  · rw [show (u.out o).buf = some (b.1.map (u.l * ·), b.2.map u.U) by simp only [out, hb, Option.map_some]]
    simp only
    rw [show (u.out o).kmax = o.kmax from rfl, show (u.out o).count = o.count from rfl, u.resize]
    by_cases h0 : o.kmax ≤ 0
    · rw [if_pos h0, if_pos h0]; rfl
    rw [if_neg h0, if_neg h0]
    by_cases h : (o.count : ℤ) = o.kmax
    · simp only [if_pos h]
      exact u.store _ x y
    · simp only [if_neg h]
      exact u.store _ x y

theorem outBody (s : Stepper n) (x h : ℝ) (o : Out n) : Out.outBody (u.stepper s) (u.l * x) (u.l * h) (u.out o) = (Out.outBody s x h o).map u.out u.outRes := by
  have hl : 0 < u.l ^ 2 := by have := u.l0; positivity
  unfold Out.outBody
  have e : ((u.l * x - (u.out o).xout) * ((u.out o).x2 - (u.out o).x1) > 0) = ((x - o.xout) * (o.x2 - o.x1) > 0) := by
    show ((u.l * x - u.l * o.xout) * (u.l * o.x2 - u.l * o.x1) > 0) = _
    rw [show (u.l * x - u.l * o.xout) * (u.l * o.x2 - u.l * o.x1) = u.l ^ 2 * ((x - o.xout) * (o.x2 - o.x1)) by ring]
    exact propext (mul_pos_iff_of_pos_left hl)
  simp only [e]
  by_cases h1 : (x - o.xout) * (o.x2 - o.x1) > 0
  · rw [if_pos h1, if_pos h1, show (u.out o).xout = u.l * o.xout from rfl, denseOut, u.saveDense]
    rcases o.saveDense o.xout (Ode.denseOut s o.xout h) with ⟨_ | _, o'⟩
    · rfl
    · show Sum.inl _ = Sum.inl _
      congr 1
      simp only [out, outRes, mul_add]
  · rw [if_neg h1, if_neg h1]; rfl

theorem outOut (o : Out n) (k : ℤ) (x : ℝ) (y : V n) (s : Stepper n) (h : ℝ) :
    (u.out o).out k (u.l * x) (u.U y) (u.stepper s) (u.l * h) = (o.out k x y s h).map u.outRes := by
  unfold Out.out
  rw [show (u.out o).dense = o.dense from rfl]
  by_cases hd : o.dense = true
  · rw [if_pos hd, if_pos hd]
    by_cases hk : k = 1
    · rw [if_pos hk, if_pos hk, u.save]
      rcases o.save x y with ⟨_ | _, o'⟩
      · rfl
      · simp only [outRes, Option.map_some, out, mul_add]
    · rw [if_neg hk, if_neg hk]
      exact runLoop_map u.out u.outRes (fun o => u.outBody s x h o) o
  · rw [if_neg hd, if_neg hd]; rfl

theorem lastX (o : Out n) : (u.out o).lastX = u.l * o.lastX := by
  obtain ⟨kmax, nsave, dense, count, x1, x2, xout, dxout, _ | ⟨xs, ys⟩⟩ := o
  · exact (mul_zero _).symm
  · show (if count = 0 then (xs.map (u.l * ·)).getLastD 0 else (xs.map (u.l * ·)).getD (count - 1) 0) = u.l * (if count = 0 then xs.getLastD 0 else xs.getD (count - 1) 0)
    by_cases hc : count = 0
    · rw [if_pos hc, if_pos hc, List.getLastD_eq_getLast?, List.getLastD_eq_getLast?, List.getLast?_map]
      rcases xs.getLast? with _ | a
      · exact (mul_zero u.l).symm
      · rfl
    · rw [if_neg hc, if_neg hc, List.getD_eq_getElem?_getD, List.getD_eq_getElem?_getD, List.getElem?_map]
      rcases xs[count - 1]? with _ | a
      · exact (mul_zero u.l).symm
      · rfl

noncomputable def ode (o : Ode n) : Ode n where
  x1 := u.l * o.x1
  x2 := u.l * o.x2
  hmin := |u.l| * o.hmin
  h := u.l * o.h
  nok := o.nok
  nbad := o.nbad
  ystart := u.U o.ystart
  s := u.stepper o.s
  con := u.con o.con
  out := u.out o.out
  visited := o.visited.map (u.l * ·)

theorem new (c : Con) (y : V n) (x1 x2 h1 hmin : ℝ) (o : Out n) :
    Ode.new (u.con c) (u.U y) (u.l * x1) (u.l * x2) (|u.l| * h1) (|u.l| * hmin) (u.out o) = u.ode (Ode.new c y x1 x2 h1 hmin o) := by
  unfold Ode.new ode
  simp only [u.init, Ode.mk.injEq, true_and, List.map_nil, and_true, stepper, mul_zero, map_zero, Pi.zero_apply]
  refine ⟨?_, rfl⟩
  rw [← mul_sub, sign_mul, abs_mul, abs_abs]
  have : |u.l| * ((SignType.sign u.l : SignType) : ℝ) = u.l := by rw [mul_comm]; exact sign_mul_abs u.l
  push_cast
  calc _ = |u.l| * ((SignType.sign u.l : SignType) : ℝ) * (|h1| * ((SignType.sign (x2 - x1) : SignType) : ℝ)) := by ring
    _ = _ := by rw [this]

noncomputable def odeRes (r : Except PyErr Unit × Ode n) : Except PyErr Unit × Ode n := (r.1, u.ode r.2)

variable {u}

theorem Same.record (e : u.Same p q) (o : Ode n) (k : ℤ) (x : ℝ) (y : V n) (h : ℝ) :
    (u.ode o).record q k (u.l * x) (u.U y) (u.l * h) = (o.record p k x y h).map u.odeRes := by
  unfold Ode.record
  rw [e.dense]
  by_cases hd : p.dense = true
  · rw [if_pos hd, if_pos hd, show (u.ode o).out = u.out o.out from rfl, show (u.ode o).s = u.stepper o.s from rfl, u.outOut]
    rcases o.out.out k x y o.s h with _ | ⟨r, w⟩
    · rfl
    · rfl
  · rw [if_neg hd, if_neg hd, show (u.ode o).out = u.out o.out from rfl, u.save]
    rcases o.out.save x y with ⟨r, w⟩
    rfl

theorem after (o : Ode n) : (u.ode o).after = (o.after.1, u.ode o.after.2) := by
  have hl : 0 < u.l ^ 2 := by have := u.l0; positivity
  have ha := abs_pos.2 u.l0
  have e1 : (((u.ode o).s.x - (u.ode o).x2) * ((u.ode o).x2 - (u.ode o).x1) ≥ 0) = ((o.s.x - o.x2) * (o.x2 - o.x1) ≥ 0) := by
    show ((u.l * o.s.x - u.l * o.x2) * (u.l * o.x2 - u.l * o.x1) ≥ 0) = _
    rw [show (u.l * o.s.x - u.l * o.x2) * (u.l * o.x2 - u.l * o.x1) = u.l ^ 2 * ((o.s.x - o.x2) * (o.x2 - o.x1)) by ring]
    exact propext (mul_nonneg_iff_of_pos_left hl)
  have e2 : (|(u.ode o).out.lastX - (u.ode o).x2| > 100 * |(u.ode o).x2| * EPS) = (|o.out.lastX - o.x2| > 100 * |o.x2| * EPS) := by
    show (|(u.out o.out).lastX - u.l * o.x2| > 100 * |u.l * o.x2| * EPS) = _
    rw [u.lastX, ← mul_sub, abs_mul, abs_mul, show 100 * (|u.l| * |o.x2|) * EPS = |u.l| * (100 * |o.x2| * EPS) by ring]
    exact propext (mul_lt_mul_iff_right₀ ha)
  have e3 : (|(u.ode o).s.hnext| ≤ (u.ode o).hmin) = (|o.s.hnext| ≤ o.hmin) := by
    show (|u.l * o.s.hnext| ≤ |u.l| * o.hmin) = _
    rw [abs_mul]
    exact propext (mul_le_mul_iff_right₀ ha)
  unfold Ode.after
  simp only [e1, e2, e3]
  by_cases h1 : (o.s.x - o.x2) * (o.x2 - o.x1) ≥ 0
  · rw [if_pos h1, if_pos h1]
    by_cases h2 : o.out.kmax > 0 ∧ |o.out.lastX - o.x2| > 100 * |o.x2| * EPS
    · rw [if_pos (show (u.ode o).out.kmax > 0 ∧ _ from h2), if_pos h2, show (u.ode o).out = u.out o.out from rfl,
        show (u.ode o).s.x = u.l * o.s.x from rfl, show (u.ode o).s.y = u.U o.s.y from rfl, u.save]
      rcases o.out.save o.s.x o.s.y with ⟨_ | _, w⟩ <;> rfl
    · rw [if_neg (show ¬((u.ode o).out.kmax > 0 ∧ _) from h2), if_neg h2]; rfl
  · rw [if_neg h1, if_neg h1]
    split_ifs <;> rfl

theorem clip (o : Ode n) : (u.ode o).clip = u.ode o.clip := by
  have e : (((u.ode o).s.x + (u.ode o).h * 1.0001 - (u.ode o).x2) / ((u.ode o).x2 - (u.ode o).x1) > 0) = ((o.s.x + o.h * 1.0001 - o.x2) / (o.x2 - o.x1) > 0) := by
    show ((u.l * o.s.x + u.l * o.h * 1.0001 - u.l * o.x2) / (u.l * o.x2 - u.l * o.x1) > 0) = _
    rw [show u.l * o.s.x + u.l * o.h * 1.0001 - u.l * o.x2 = u.l * (o.s.x + o.h * 1.0001 - o.x2) by ring, ← mul_sub, mul_div_mul_left _ _ u.l0]
  unfold Ode.clip
  simp only [e]
  split_ifs
  · simp only [ode, stepper, mul_sub]
  · rfl

theorem took (o : Ode n) (s : Stepper n) (c : Con) : (u.ode o).took (u.stepper s) (u.con c) = u.ode (o.took s c) := by
  have e : ((u.stepper s).hdid = (u.ode o).h) = (s.hdid = o.h) := by
    show (u.l * s.hdid = u.l * o.h) = _
    exact propext (mul_right_inj' u.l0)
  unfold Ode.took
  simp only [e]
  simp only [ode, stepper, List.map_append, List.map_cons, List.map_nil]

theorem Same.iter (e : u.Same p q) (o : Ode n) (k : ℕ) : (u.ode o).iter q k = (o.iter p k).map fun r => (r.1, u.ode r.2) := by
  unfold Ode.iter
  rw [clip, show (u.ode o.clip).s = u.stepper o.clip.s from rfl, show (u.ode o.clip).h = u.l * o.clip.h from rfl, show (u.ode o.clip).con = u.con o.clip.con from rfl, e.step]
  rcases Ode.step p o.clip.s o.clip.h o.clip.con with _ | ⟨_ | _, s, c⟩
  · rfl
  · rfl
  · simp only [Option.map_some]
    rw [took, show (u.stepper s).x = u.l * s.x from rfl, show (u.stepper s).y = u.U s.y from rfl, show (u.stepper s).hdid = u.l * s.hdid from rfl, e.record]
    rcases (o.clip.took s c).record p k s.x s.y s.hdid with _ | ⟨_ | _, o'⟩
    · rfl
    · rfl
    · simp only [Option.map_some, odeRes, after]

theorem Same.loop (e : u.Same p q) (m : ℕ) : ∀ (k : ℕ) (o : Ode n), Ode.loop q m k (u.ode o) = (Ode.loop p m k o).map u.odeRes := by
  induction m with
  | zero => exact fun _ _ => rfl
  | succ m ih =>
    intro k o
    unfold Ode.loop
    rw [e.iter]
    rcases o.iter p k with _ | ⟨_ | b, o'⟩
    · rfl
    · rfl
    · cases b
      · exact ih (k + 1) o'
      · rfl

/-- the whole integration in the new units -/
theorem Same.integrate (e : u.Same p q) (o : Ode n) : (u.ode o).integrate q = (o.integrate p).map u.odeRes := by
  have h0 : ({ u.ode o with s := { (u.ode o).s with dydx := q.f (u.ode o).x1 (u.ode o).ystart } } : Ode n) =
      u.ode { o with s := { o.s with dydx := p.f o.x1 o.ystart } } := by
    simp only [ode, stepper, e.f o.x1 o.ystart]
  unfold Ode.integrate
  simp only
  rw [h0, show (u.ode o).x1 = u.l * o.x1 from rfl, show (u.ode o).ystart = u.U o.ystart from rfl, show (u.ode o).h = u.l * o.h from rfl, e.record]
  rcases ({ o with s := { o.s with dydx := p.f o.x1 o.ystart } } : Ode n).record p (-1) o.x1 o.ystart o.h with _ | ⟨_ | _, o'⟩
  · rfl
  · rfl
  · exact e.loop 50000 0 o'

end Units

end PyNLO.Ode
