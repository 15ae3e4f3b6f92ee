import Verif.Py.Basic
import Verif.Py.Loop
import Verif.Model.OdeConst
import Mathlib.Analysis.SpecialFunctions.Pow.Real
import Mathlib.Analysis.Complex.Norm

/-!
# The adaptive Runge–Kutta integrator

`src/pynlo/util/ode_solve/{steppers,dopr853,dopr853_controller}.py`.

* The integration variable and the step are reals; the solution is a complex vector (a real problem is the
  case of vanishing imaginary parts).  A float may be NaN where the code's control flow depends on it: the
  error estimate and the step length inside `step`.
* Arithmetic is exact, except for the product `h *= scale` on a rejected step (`dopr853_controller.py:66`),
  which is rounded by a function `fl`: whether repeated reduction reaches zero depends on underflow.
* `RHS_class.deriv(x, y, dydx)` is a pure function of `x` and `y` written into `dydx`.
* `dtype` comparisons always succeed (the workspaces are created with the type of the initial value).
* `StepperDopr853.con` is a class attribute: one controller object shared by every stepper of the process.
  It is passed in and handed back.
-/

namespace PyNLO.Ode

/-- One value of the solution: an array of `n` numbers. -/
abbrev V (n : ℕ) := Fin n → ℂ

/-- `RHS_class.deriv` -/
abbrev Rhs (n : ℕ) := ℝ → V n → V n

/-- A float that may be NaN. -/
inductive Flt where
  | nan
  | val (x : ℝ)

/-- `np.finfo(np.double).eps` (`steppers.py:133`, `156`, `dopr853.py:56`). -/
noncomputable def EPS : ℝ := 2⁻¹ ^ 52

/-! ## `dopr853_controller.py` -/

/-- `Controller` (`dopr853_controller.py:29-36`). -/
structure Con where
  hnext : ℝ
  errold : ℝ
  reject : Bool

/-- `Controller.__init__` (`dopr853_controller.py:33-36`). -/
noncomputable def Con.new : Con := ⟨0, 1e-4, false⟩

open Classical in
/-- `dopr853_controller.py:46-53`: scale of an accepted step (`beta` is zero, so its power is one). -/
noncomputable def acceptScale (err : ℝ) : ℝ :=
  if err = 0 then 6
  else
    let s := 0.9 * err ^ (-(1 / 8 : ℝ))
    let s := if s < 0.333 then 0.333 else s
    if s > 6 then 6 else s

/-- `dopr853_controller.py:65`: scale of a rejected step. -/
noncomputable def rejectScale (err : ℝ) : ℝ := max (0.9 * err ^ (-(1 / 8 : ℝ))) 0.333

open Classical in
/-- `Controller.success` (`dopr853_controller.py:37-70`).  With a NaN error `err <= 1.0` is false and the scale,
hence the step, becomes NaN. -/
noncomputable def success (fl : ℝ → ℝ) (err h : Flt) : PyM Con (Bool × Flt) := fun c =>
  match h with
  | .nan => (.error .AssertionError, c)
  | .val h =>
    match err with
    | .nan => (.ok (false, .nan), { c with reject := true })
    | .val e =>
      if e ≤ 1 then
        (.ok (true, .val h),
          ⟨if c.reject then h * min (acceptScale e) 1 else h * acceptScale e, max e 1e-4, false⟩)
      else (.ok (false, .val (fl (h * rejectScale e))), { c with reject := true })

/-! ## `dopr853.py` -/

/-- Attributes of the stepper that `dy` writes and that are read afterwards (`dopr853.py:78-126`). -/
structure Stages (n : ℕ) where
  k2 : V n
  k3 : V n
  k6 : V n
  k7 : V n
  k8 : V n
  k9 : V n
  k10 : V n
  yout : V n
  yerr : V n
  yerr2 : V n

open dc in
/-- `StepperDopr853.dy` (`dopr853.py:78-126`).  `k2` and `k3` are reused for the stages 11 and 12, `k4` for the
increment; they are called `k11`, `k12`, `inc` here. -/
noncomputable def dy {n : ℕ} (f : Rhs n) (x : ℝ) (y dydx : V n) (h : ℝ) : Stages n :=
  let k2 := f (x + c2 * h) (y + (h * a21) • dydx)
  let k3 := f (x + c3 * h) (y + h • (a31 • dydx + a32 • k2))
  let k4 := f (x + c4 * h) (y + h • (a41 • dydx + a43 • k3))
  let k5 := f (x + c5 * h) (y + h • (a51 • dydx + a53 • k3 + a54 • k4))
  let k6 := f (x + c6 * h) (y + h • (a61 • dydx + a64 • k4 + a65 • k5))
  let k7 := f (x + c7 * h) (y + h • (a71 • dydx + a74 • k4 + a75 • k5 + a76 • k6))
  let k8 := f (x + c8 * h) (y + h • (a81 • dydx + a84 • k4 + a85 • k5 + a86 • k6 + a87 • k7))
  let k9 := f (x + c9 * h) (y + h • (a91 • dydx + a94 • k4 + a95 • k5 + a96 • k6 + a97 • k7 + a98 • k8))
  let k10 := f (x + c10 * h)
    (y + h • (a101 • dydx + a104 • k4 + a105 • k5 + a106 • k6 + a107 • k7 + a108 • k8 + a109 • k9))
  let k11 := f (x + c11 * h)
    (y + h • (a111 • dydx + a114 • k4 + a115 • k5 + a116 • k6 + a117 • k7 + a118 • k8 + a119 • k9
      + a1110 • k10))
  let k12 := f (x + h)
    (y + h • (a121 • dydx + a124 • k4 + a125 • k5 + a126 • k6 + a127 • k7 + a128 • k8 + a129 • k9
      + a1210 • k10 + a1211 • k11))
  let inc := b1 • dydx + b6 • k6 + b7 • k7 + b8 • k8 + b9 • k9 + b10 • k10 + b11 • k11 + b12 • k12
  { k2 := k11, k3 := k12, k6 := k6, k7 := k7, k8 := k8, k9 := k9, k10 := k10
    yout := y + h • inc
    yerr := inc - bhh1 • dydx - bhh2 • k9 - bhh3 • k12
    yerr2 := er1 • dydx + er6 • k6 + er7 • k7 + er8 • k8 + er9 • k9 + er10 • k10 + er11 • k11 + er12 • k12 }

/-- `dopr853.py:169`: the error scale of each component. -/
noncomputable def errScale {n : ℕ} (atol rtol : ℝ) (y yout : V n) (i : Fin n) : ℝ :=
  atol + rtol * max ‖y i‖ ‖yout i‖

/-- `dopr853.py:170-171`: a sum of squares of scaled errors. -/
noncomputable def errSum {n : ℕ} (sk : Fin n → ℝ) (e : V n) : ℝ := ∑ i, (‖e i‖ / sk i) ^ 2

open Classical in
/-- `StepperDopr853.error` (`dopr853.py:164-175`).  The value is NaN if a scale is zero (`0/0` or
`inf * sqrt(1/inf)`), or if `deno*n` is zero (`0 * sqrt(1/0)`); the guard `deno < 0.0` cannot be met, as
`deno` is a sum of squares. -/
noncomputable def error {n : ℕ} (atol rtol : ℝ) (y : V n) (st : Stages n) (h : ℝ) : Flt :=
  let sk := errScale atol rtol y st.yout
  let err2 := errSum sk st.yerr
  let err1 := errSum sk st.yerr2
  let deno := err1 + 0.01 * err2
  let deno := if deno < 0 then 1 else deno
  if (∃ i, sk i = 0) ∨ deno * n = 0 then .nan
  else .val |(|h| * |err1| * √(1 / (deno * n)))|

/-- State of the `while True` loop of `step`: trial step and shared controller. -/
structure Trial where
  h : Flt
  con : Con

open Classical in
/-- One pass of the loop in `StepperDopr853.step` (`dopr853.py:60-69`) when the error of a trial step `h` is
`errF h`.  With a NaN step all stages, and the error, are NaN. -/
noncomputable def stepBody (fl : ℝ → ℝ) (errF : ℝ → Flt) (x : ℝ) (t : Trial) :
    Trial ⊕ (Except PyErr ℝ × Con) :=
  let err := match t.h with
    | .nan => .nan
    | .val h => errF h
  match success fl err t.h t.con with
  | (.error e, c) => .inr (.error e, c)
  | (.ok (true, .val h), c) => .inr (.ok h, c)
  | (.ok (true, .nan), c) => .inr (.error .AssertionError, c)
  | (.ok (false, .nan), c) => .inl ⟨.nan, c⟩
  | (.ok (false, .val h), c) => if |h| ≤ |x| * EPS then .inr (.error .OverflowError, c) else .inl ⟨.val h, c⟩

/-- The loop of `step`: the accepted step length, or the exception. -/
noncomputable def stepLoop (fl : ℝ → ℝ) (errF : ℝ → Flt) (x htry : ℝ) (c : Con) :
    Option (Except PyErr ℝ × Con) :=
  runLoop (stepBody fl errF x) ⟨.val htry, c⟩

/-- `StepperDopr853` (`dopr853.py:29-56`, `steppers.py:123-152`): the attributes that survive a step. -/
structure Stepper (n : ℕ) where
  x : ℝ
  xold : ℝ
  hdid : ℝ
  hnext : ℝ
  y : V n
  dydx : V n
  rc : Fin 8 → V n

/-- Parameters of an integration: right-hand side, tolerances, `dense`, rounding of rejected steps. -/
structure Prob (n : ℕ) where
  f : Rhs n
  atol : ℝ
  rtol : ℝ
  dense : Bool
  fl : ℝ → ℝ

open dc in
/-- `StepperDopr853.prepare_dense` (`dopr853.py:127-158`): `rcont1`, …, `rcont8`. -/
noncomputable def prepareDense {n : ℕ} (f : Rhs n) (x : ℝ) (y dydx dydxnew : V n) (st : Stages n) (h : ℝ) :
    Fin 8 → V n :=
  let ydiff := st.yout - y
  let bspl := h • dydx - ydiff
  let r5 := d41 • dydx + d46 • st.k6 + d47 • st.k7 + d48 • st.k8 + d49 • st.k9 + d410 • st.k10
    + d411 • st.k2 + d412 • st.k3
  let r6 := d51 • dydx + d56 • st.k6 + d57 • st.k7 + d58 • st.k8 + d59 • st.k9 + d510 • st.k10
    + d511 • st.k2 + d512 • st.k3
  let r7 := d61 • dydx + d66 • st.k6 + d67 • st.k7 + d68 • st.k8 + d69 • st.k9 + d610 • st.k10
    + d611 • st.k2 + d612 • st.k3
  let r8 := d71 • dydx + d76 • st.k6 + d77 • st.k7 + d78 • st.k8 + d79 • st.k9 + d710 • st.k10
    + d711 • st.k2 + d712 • st.k3
  let k14 := f (x + c14 * h) (y + h • (a141 • dydx + a147 • st.k7 + a148 • st.k8 + a149 • st.k9
    + a1410 • st.k10 + a1411 • st.k2 + a1412 • st.k3 + a1413 • dydxnew))
  let k15 := f (x + c15 * h) (y + h • (a151 • dydx + a156 • st.k6 + a157 • st.k7 + a158 • st.k8
    + a1511 • st.k2 + a1512 • st.k3 + a1513 • dydxnew + a1514 • k14))
  let k16 := f (x + c16 * h) (y + h • (a161 • dydx + a166 • st.k6 + a167 • st.k7 + a168 • st.k8
    + a169 • st.k9 + a1613 • dydxnew + a1614 • k14 + a1615 • k15))
  ![y, ydiff, bspl, ydiff - h • dydxnew - bspl,
    h • (r5 + d413 • dydxnew + d414 • k14 + d415 • k15 + d416 • k16),
    h • (r6 + d513 • dydxnew + d514 • k14 + d515 • k15 + d516 • k16),
    h • (r7 + d613 • dydxnew + d614 • k14 + d615 • k15 + d616 • k16),
    h • (r8 + d713 • dydxnew + d714 • k14 + d715 • k15 + d716 • k16)]

/-- `StepperDopr853.dense_out` (`dopr853.py:159-163`). -/
noncomputable def denseOut {n : ℕ} (s : Stepper n) (x h : ℝ) : V n :=
  let t := (x - s.xold) / h
  let t1 := 1 - t
  s.rc 0 + t • (s.rc 1 + t1 • (s.rc 2 + t • (s.rc 3 + t1 • (s.rc 4 + t • (s.rc 5 + t1 • (s.rc 6 + t • s.rc 7))))))

/-- `StepperDopr853.step` (`dopr853.py:57-77`); `none` if it never comes back.  A raise leaves the attributes
kept here unchanged. -/
noncomputable def step {n : ℕ} (p : Prob n) (s : Stepper n) (htry : ℝ) (c : Con) :
    Option (Except PyErr Unit × Stepper n × Con) :=
  match stepLoop p.fl (fun h => error p.atol p.rtol s.y (dy p.f s.x s.y s.dydx h) h) s.x htry c with
  | none => none
  | some (.error e, c) => some (.error e, s, c)
  | some (.ok h, c) =>
    let st := dy p.f s.x s.y s.dydx h
    let dydxnew := p.f (s.x + h) st.yout
    some (.ok (),
      { x := s.x + h
        xold := s.x
        hdid := h
        hnext := c.hnext
        y := st.yout
        dydx := dydxnew
        rc := if p.dense then prepareDense p.f s.x s.y s.dydx dydxnew st h else s.rc }, c)

/-! ## `steppers.py`: output buffer -/

/-- `Output` (`steppers.py:15-36`).  `buf` is the pair `(xsave, ysave)`, `none` before `init`. -/
structure Out (n : ℕ) where
  kmax : ℤ
  nsave : ℕ
  dense : Bool
  count : ℕ
  x1 : ℝ
  x2 : ℝ
  xout : ℝ
  dxout : ℝ
  buf : Option (List ℝ × List (V n))

namespace Out

variable {n : ℕ}

/-- `Output.__init__` (`steppers.py:37-47`). -/
def new (nsaves : Option ℕ) : Out n :=
  match nsaves with
  | none => ⟨-1, 0, false, 0, 0, 0, 0, 0, none⟩
  | some k => ⟨500, k, decide (k > 0), 0, 0, 0, 0, 0, none⟩

/-- `Output.init` (`steppers.py:48-74`).  The count is not reset. -/
noncomputable def init (o : Out n) (xlo xhi : ℝ) : Out n :=
  if o.kmax = -1 then o
  else
    let o := { o with buf := some (List.replicate o.kmax.toNat 0, List.replicate o.kmax.toNat 0) }
    if o.dense then { o with x1 := xlo, x2 := xhi, xout := xlo, dxout := (xhi - xlo) / o.nsave } else o

/-- `Output.resize` (`steppers.py:75-85`). -/
def resize (o : Out n) : Out n :=
  { o with
    kmax := o.kmax * 2
    buf := o.buf.map fun (xs, ys) =>
      (xs ++ List.replicate ((o.kmax * 2).toNat - xs.length) 0,
        ys ++ List.replicate ((o.kmax * 2).toNat - ys.length) 0) }

/-- `self.ysave[self.count, :] = y; self.xsave[self.count] = x; self.count += 1`
(`steppers.py:93-95`, `104-106`). -/
def store (o : Out n) (x : ℝ) (y : V n) : Except PyErr Unit × Out n :=
  match o.buf with
  | none => (.error .TypeError, o)
  | some (xs, ys) =>
    if o.count < ys.length then
      (.ok (), { o with buf := some (xs.set o.count x, ys.set o.count y), count := o.count + 1 })
    else (.error .IndexError, o)

/-- `Output.save_dense` (`steppers.py:86-95`); `y` is `s.dense_out(xout, h)`. -/
def saveDense (o : Out n) (xout : ℝ) (y : V n) : Except PyErr Unit × Out n :=
  let o := if (o.count : ℤ) = o.kmax then o.resize else o
  match o.buf with
  | none => (.error .AttributeError, o)
  | some _ => o.store xout y

/-- `Output.save` (`steppers.py:96-106`). -/
def save (o : Out n) (x : ℝ) (y : V n) : Except PyErr Unit × Out n :=
  match o.buf with
  | none => (.error .AttributeError, o)
  | some _ =>
    if o.kmax ≤ 0 then (.ok (), o)
    else
      let o := if (o.count : ℤ) = o.kmax then o.resize else o
      o.store x y

open Classical in
/-- One pass of the `while` loop of `out` (`steppers.py:117-119`). -/
noncomputable def outBody (s : Stepper n) (x h : ℝ) (o : Out n) : Out n ⊕ (Except PyErr Unit × Out n) :=
  if (x - o.xout) * (o.x2 - o.x1) > 0 then
    match o.saveDense o.xout (denseOut s o.xout h) with
    | (.error e, o) => .inr (.error e, o)
    | (.ok _, o) => .inl { o with xout := o.xout + o.dxout }
  else .inr (.ok (), o)

/-- `Output.out` (`steppers.py:107-119`). -/
noncomputable def out (o : Out n) (nstp : ℤ) (x : ℝ) (y : V n) (s : Stepper n) (h : ℝ) :
    Option (Except PyErr Unit × Out n) :=
  if o.dense then
    if nstp = 1 then
      match o.save x y with
      | (.error e, o) => some (.error e, o)
      | (.ok _, o) => some (.ok (), { o with xout := o.xout + o.dxout })
    else runLoop (outBody s x h) o
  else some (.error .AttributeError, o)

/-- `self.out.xsave[self.out.count-1]`: with `count = 0` the last element (`steppers.py:229`). -/
def lastX (o : Out n) : ℝ :=
  match o.buf with
  | none => 0
  | some (xs, _) => if o.count = 0 then xs.getLastD 0 else xs.getD (o.count - 1) 0

end Out

/-! ## `steppers.py`: `ODEint` -/

/-- `ODEint` (`steppers.py:154-207`): the state of an integration, with the caller's array `ystart` and the
shared controller.  `visited` is not in the code: it records the stepper's position after each step. -/
structure Ode (n : ℕ) where
  x1 : ℝ
  x2 : ℝ
  hmin : ℝ
  h : ℝ
  nok : ℕ
  nbad : ℕ
  ystart : V n
  s : Stepper n
  con : Con
  out : Out n
  visited : List ℝ

/-- `ODEint.__init__` (`steppers.py:172-207`), with the process's controller. -/
noncomputable def Ode.new {n : ℕ} (con : Con) (ystart : V n) (x1 x2 h1 hmin : ℝ) (o : Out n) : Ode n :=
  { x1 := x1
    x2 := x2
    hmin := hmin
    h := |h1| * SignType.sign (x2 - x1)
    nok := 0
    nbad := 0
    ystart := ystart
    s := { x := x1, xold := 0, hdid := 0, hnext := 0, y := ystart, dydx := 0, rc := 0 }
    con := con
    out := o.init x1 x2
    visited := [] }

/-- `steppers.py:210-213`, `222-225`: recording a point. -/
noncomputable def Ode.record {n : ℕ} (p : Prob n) (o : Ode n) (nstp : ℤ) (x : ℝ) (y : V n) (h : ℝ) :
    Option (Except PyErr Unit × Ode n) :=
  if p.dense then
    match o.out.out nstp x y o.s h with
    | none => none
    | some (r, u) => some (r, { o with out := u })
  else
    match o.out.save x y with
    | (r, u) => some (r, { o with out := u })

open Classical in
/-- `steppers.py:226-236`: after a step has been recorded: whether the integration is finished. -/
noncomputable def Ode.after {n : ℕ} (o : Ode n) : Except PyErr Bool × Ode n :=
  if (o.s.x - o.x2) * (o.x2 - o.x1) ≥ 0 then
    let o := { o with ystart := o.s.y }
    if o.out.kmax > 0 ∧ |o.out.lastX - o.x2| > 100 * |o.x2| * EPS then
      match o.out.save o.s.x o.s.y with
      | (.error e, u) => (.error e, { o with out := u })
      | (.ok _, u) => (.ok true, { o with out := u })
    else (.ok true, o)
  else if |o.s.hnext| ≤ o.hmin then (.error .RuntimeError, o)
  else (.ok false, { o with h := o.s.hnext })

open Classical in
/-- `steppers.py:215-216`: shortening a step that would overshoot. -/
noncomputable def Ode.clip {n : ℕ} (o : Ode n) : Ode n :=
  if (o.s.x + o.h * 1.0001 - o.x2) / (o.x2 - o.x1) > 0 then { o with h := o.x2 - o.s.x } else o

open Classical in
/-- `steppers.py:217-221`: the stepper has taken a step; counting good and bad ones. -/
noncomputable def Ode.took {n : ℕ} (o : Ode n) (s : Stepper n) (c : Con) : Ode n :=
  { o with
    s := s
    con := c
    visited := o.visited ++ [s.x]
    nok := if s.hdid = o.h then o.nok + 1 else o.nok
    nbad := if s.hdid = o.h then o.nbad else o.nbad + 1 }

/-- One pass of the loop of `ODEint.integrate` (`steppers.py:214-236`). -/
noncomputable def Ode.iter {n : ℕ} (p : Prob n) (o : Ode n) (nstp : ℕ) : Option (Except PyErr Bool × Ode n) :=
  match step p o.clip.s o.clip.h o.clip.con with
  | none => none
  | some (.error e, s, c) => some (.error e, { o.clip with s := s, con := c })
  | some (.ok _, s, c) =>
    match (o.clip.took s c).record p nstp s.x s.y s.hdid with
    | none => none
    | some (.error e, o) => some (.error e, o)
    | some (.ok _, o) => some o.after

/-- The `for` loop of `ODEint.integrate` (`steppers.py:214-238`) with `m` passes left. -/
noncomputable def Ode.loop {n : ℕ} (p : Prob n) : ℕ → ℕ → Ode n → Option (Except PyErr Unit × Ode n)
  | 0, _, o => some (.error .RuntimeError, o)
  | m + 1, nstp, o =>
    match o.iter p nstp with
    | none => none
    | some (.error e, o) => some (.error e, o)
    | some (.ok true, o) => some (.ok (), o)
    | some (.ok false, o) => Ode.loop p m (nstp + 1) o

/-- `ODEint.integrate` (`steppers.py:208-238`), `MAXSTP` passes at most. -/
noncomputable def Ode.integrate {n : ℕ} (p : Prob n) (o : Ode n) : Option (Except PyErr Unit × Ode n) :=
  let o := { o with s := { o.s with dydx := p.f o.x1 o.ystart } }
  match o.record p (-1) o.x1 o.ystart o.h with
  | none => none
  | some (.error e, o) => some (.error e, o)
  | some (.ok _, o) => Ode.loop p 50000 0 o

end PyNLO.Ode
