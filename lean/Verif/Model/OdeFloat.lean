import Verif.Model.Ode
import Verif.Py.Double

/-!
# The positions of the adaptive integrator in double precision

`src/pynlo/util/ode_solve/{steppers,dopr853}.py`, as `Model/Ode`, with every sum, difference, product and quotient that makes up a position, a step length handed on
or a test of positions rounded by `rnd`.  `rnd = id` gives the model of `Model/Ode` (`C173_model`), `rnd = Double.nearest` is IEEE double precision without the
limit on the exponent.  The solution itself, its stages and the error estimate remain exact; rejected steps are rounded by `Prob.fl` as before.
-/

namespace PyNLO.Ode

variable {n : ℕ} (rnd : ℝ → ℝ)

/-- `StepperDopr853.step` (`dopr853.py:57-77`) with rounded `self.x + h` and with the proposed step `h*scale` (`dopr853_controller.py:54-57`) rounded. -/
noncomputable def stepF (p : Prob n) (s : Stepper n) (htry : ℝ) (c : Con) : Option (Except PyErr Unit × Stepper n × Con) :=
  match stepLoop p.fl (fun h => error p.atol p.rtol s.y (dy p.f s.x s.y s.dydx h) h) s.x htry c with
  | none => none
  | some (.error e, c) => some (.error e, s, c)
  | some (.ok h, c) =>
    let st := dy p.f s.x s.y s.dydx h
    let dydxnew := p.f (rnd (s.x + h)) st.yout
    some (.ok (),
      { x := rnd (s.x + h)
        xold := s.x
        hdid := h
        hnext := rnd c.hnext
        y := st.yout
        dydx := dydxnew
        rc := if p.dense then prepareDense p.f s.x s.y s.dydx dydxnew st h else s.rc }, { c with hnext := rnd c.hnext })

/-- `Output.init` (`steppers.py:48-74`), the spacing rounded. -/
noncomputable def Out.initF (o : Out n) (xlo xhi : ℝ) : Out n :=
  if o.kmax = -1 then o
  else
    let o := { o with buf := some (List.replicate o.kmax.toNat 0, List.replicate o.kmax.toNat 0) }
    if o.dense then { o with x1 := xlo, x2 := xhi, xout := xlo, dxout := rnd (rnd (xhi - xlo) / o.nsave) } else o

open Classical in
/-- One pass of the `while` loop of `out` (`steppers.py:117-119`), rounded. -/
noncomputable def Out.outBodyF (s : Stepper n) (x h : ℝ) (o : Out n) : Out n ⊕ (Except PyErr Unit × Out n) :=
  if rnd (rnd (x - o.xout) * rnd (o.x2 - o.x1)) > 0 then
    match o.saveDense o.xout (denseOut s o.xout h) with
    | (.error e, o) => .inr (.error e, o)
    | (.ok _, o) => .inl { o with xout := rnd (o.xout + o.dxout) }
  else .inr (.ok (), o)

/-- `Output.out` (`steppers.py:107-119`), rounded. -/
noncomputable def Out.outF (o : Out n) (nstp : ℤ) (x : ℝ) (y : V n) (s : Stepper n) (h : ℝ) : Option (Except PyErr Unit × Out n) :=
  if o.dense then
    if nstp = 1 then
      match o.save x y with
      | (.error e, o) => some (.error e, o)
      | (.ok _, o) => some (.ok (), { o with xout := rnd (o.xout + o.dxout) })
    else runLoop (Out.outBodyF rnd s x h) o
  else some (.error .AttributeError, o)

/-- `ODEint.__init__` (`steppers.py:172-207`), with the rounded `Output.init`; `np.sign` returns -1, 0 or 1, so the product with it is exact. -/
noncomputable def Ode.newF (con : Con) (ystart : V n) (x1 x2 h1 hmin : ℝ) (o : Out n) : Ode n :=
  { Ode.new con ystart x1 x2 h1 hmin o with out := o.initF rnd x1 x2 }

/-- `steppers.py:210-213`, `222-225`: recording a point, rounded. -/
noncomputable def Ode.recordF (p : Prob n) (o : Ode n) (nstp : ℤ) (x : ℝ) (y : V n) (h : ℝ) : Option (Except PyErr Unit × Ode n) :=
  if p.dense then
    match o.out.outF rnd nstp x y o.s h with
    | none => none
    | some (r, u) => some (r, { o with out := u })
  else
    match o.out.save x y with
    | (r, u) => some (r, { o with out := u })

open Classical in
/-- `steppers.py:226-236`: after a step has been recorded: whether the integration is finished; rounded. -/
noncomputable def Ode.afterF (o : Ode n) : Except PyErr Bool × Ode n :=
  if rnd (rnd (o.s.x - o.x2) * rnd (o.x2 - o.x1)) ≥ 0 then
    let o := { o with ystart := o.s.y }
    if o.out.kmax > 0 ∧ |rnd (o.out.lastX - o.x2)| > rnd (rnd (100 * |o.x2|) * EPS) then
      match o.out.save o.s.x o.s.y with
      | (.error e, u) => (.error e, { o with out := u })
      | (.ok _, u) => (.ok true, { o with out := u })
    else (.ok true, o)
  else if |o.s.hnext| ≤ o.hmin then (.error .RuntimeError, o)
  else (.ok false, { o with h := o.s.hnext })

open Classical in
/-- `steppers.py:215-216`: shortening a step that would overshoot, rounded (the literal `1.0001` too). -/
noncomputable def Ode.clipF (o : Ode n) : Ode n :=
  if rnd (rnd (rnd (o.s.x + rnd (o.h * rnd 1.0001)) - o.x2) / rnd (o.x2 - o.x1)) > 0 then { o with h := rnd (o.x2 - o.s.x) } else o

/-- One pass of the loop of `ODEint.integrate` (`steppers.py:214-236`), rounded. -/
noncomputable def Ode.iterF (p : Prob n) (o : Ode n) (nstp : ℕ) : Option (Except PyErr Bool × Ode n) :=
  match stepF rnd p (o.clipF rnd).s (o.clipF rnd).h (o.clipF rnd).con with
  | none => none
  | some (.error e, s, c) => some (.error e, { o.clipF rnd with s := s, con := c })
  | some (.ok _, s, c) =>
    match Ode.recordF rnd p ((o.clipF rnd).took s c) nstp s.x s.y s.hdid with
    | none => none
    | some (.error e, o) => some (.error e, o)
    | some (.ok _, o) => some (o.afterF rnd)

/-- The `for` loop of `ODEint.integrate` (`steppers.py:214-238`) with `m` passes left, rounded. -/
noncomputable def Ode.loopF (p : Prob n) : ℕ → ℕ → Ode n → Option (Except PyErr Unit × Ode n)
  | 0, _, o => some (.error .RuntimeError, o)
  | m + 1, nstp, o =>
    match Ode.iterF rnd p o nstp with
    | none => none
    | some (.error e, o) => some (.error e, o)
    | some (.ok true, o) => some (.ok (), o)
    | some (.ok false, o) => Ode.loopF p m (nstp + 1) o

/-- `ODEint.integrate` (`steppers.py:208-238`), `MAXSTP` passes at most, rounded. -/
noncomputable def Ode.integrateF (p : Prob n) (o : Ode n) : Option (Except PyErr Unit × Ode n) :=
  let o := { o with s := { o.s with dydx := p.f o.x1 o.ystart } }
  match Ode.recordF rnd p o (-1) o.x1 o.ystart o.h with
  | none => none
  | some (.error e, o) => some (.error e, o)
  | some (.ok _, o) => Ode.loopF rnd p 50000 0 o

end PyNLO.Ode
