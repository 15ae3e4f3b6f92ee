import Verif.Lemmas.OdeScale
import Verif.Props.OdeRuns
import Verif.Props.DfgConverge

/-!
# C187: units, phases and direction do not matter for the integrator
-/

namespace PyNLO.Ode

variable {n : ℕ}

/-- factors of the components -/
noncomputable def factors {l c : ℝ} (hl : l ≠ 0) (hc : 0 < c) {a : Fin n → ℂ} (ha : ∀ i, ‖a i‖ = c) : Units n where
  l := l
  c := c
  U := { toFun := fun y i => a i * y i
         map_add' := fun x y => by funext i; exact mul_add _ _ _
         map_smul' := fun r y => by funext i; simp [Complex.real_smul]; ring }
  l0 := hl
  c0 := hc
  norm := fun y i => by
    show ‖a i * y i‖ = _
    rw [norm_mul, ha]

/-- complex conjugates -/
noncomputable def conjugates {l : ℝ} (hl : l ≠ 0) : Units n where
  l := l
  c := 1
  U := { toFun := fun y i => (starRingEnd ℂ) (y i)
         map_add' := fun x y => by funext i; exact map_add _ _ _
         map_smul' := fun r y => by funext i; simp [Complex.real_smul] }
  l0 := hl
  c0 := one_pos
  norm := fun y i => by
    show ‖(starRingEnd ℂ) (y i)‖ = _
    rw [Complex.norm_conj, one_mul]

theorem Units.out_new (u : Units n) (k : Option ℕ) : u.out (Out.new k) = Out.new k := by
  rcases k with _ | k
  · simp only [Out.new, Units.out, mul_zero, Option.map_none]
  · simp only [Out.new, Units.out, mul_zero, Option.map_none]

/-- what a user sees of two integrations that agree up to a change of the variable by the factor `l` and of the unknown by `U`: final value, numbers of steps, positions of
the stepper, saved rows -/
structure Agree (l : ℝ) (U : V n → V n) (o o' : Ode n) : Prop where
  final : o'.ystart = U o.ystart
  nok : o'.nok = o.nok
  nbad : o'.nbad = o.nbad
  visited : o'.visited = o.visited.map (l * ·)
  count : o'.out.count = o.out.count
  rows : o'.out.buf = o.out.buf.map fun b => (b.1.map (l * ·), b.2.map U)

theorem agree_of_same {u : Units n} {p q : Prob n} (e : u.Same p q) (y0 : V n) (x1 x2 h1 hmin : ℝ) (con : Con) (k : Option ℕ) :
    ((Ode.new con y0 x1 x2 h1 hmin (Out.new k)).integrate p = none ∧
      (Ode.new { con with hnext := u.l * con.hnext } (u.U y0) (u.l * x1) (u.l * x2) (|u.l| * h1) (|u.l| * hmin) (Out.new k)).integrate q = none) ∨
    ∃ r o o', (Ode.new con y0 x1 x2 h1 hmin (Out.new k)).integrate p = some (r, o) ∧
      (Ode.new { con with hnext := u.l * con.hnext } (u.U y0) (u.l * x1) (u.l * x2) (|u.l| * h1) (|u.l| * hmin) (Out.new k)).integrate q = some (r, o') ∧
      Agree u.l u.U o o' := by
  have h := u.new con y0 x1 x2 h1 hmin (Out.new k)
  rw [u.out_new] at h
  have h2 := e.integrate (Ode.new con y0 x1 x2 h1 hmin (Out.new k))
  rw [← h] at h2
  rcases hr : (Ode.new con y0 x1 x2 h1 hmin (Out.new k)).integrate p with _ | ⟨r, o⟩
  · rw [hr] at h2
    exact Or.inl ⟨rfl, h2⟩
  · rw [hr] at h2
    exact Or.inr ⟨r, o, _, rfl, h2, rfl, rfl, rfl, rfl, rfl, rfl⟩

/-- C187: the same equation in other units (variable times `l`, component `i` of the unknown times `a i`, all of the same modulus): the integration ends in the same way, with
or without dense output, and all results agree.  `l` may be negative: integration in the other direction. -/
theorem C187_units {p q : Prob n} {l c : ℝ} (hl : l ≠ 0) (hc : 0 < c) {a : Fin n → ℂ} (ha : ∀ i, ‖a i‖ = c)
    (hf : ∀ x y i, q.f (l * x) (fun j => a j * y j) i = a i * p.f x y i / l) (hat : q.atol = c * p.atol) (hrt : q.rtol = p.rtol) (hd : q.dense = p.dense)
    (hfl : ∀ x, q.fl (l * x) = l * p.fl x) (y0 : V n) (x1 x2 h1 hmin : ℝ) (con : Con) (k : Option ℕ) :
    ((Ode.new con y0 x1 x2 h1 hmin (Out.new k)).integrate p = none ∧
      (Ode.new { con with hnext := l * con.hnext } (fun i => a i * y0 i) (l * x1) (l * x2) (|l| * h1) (|l| * hmin) (Out.new k)).integrate q = none) ∨
    ∃ r o o', (Ode.new con y0 x1 x2 h1 hmin (Out.new k)).integrate p = some (r, o) ∧
      (Ode.new { con with hnext := l * con.hnext } (fun i => a i * y0 i) (l * x1) (l * x2) (|l| * h1) (|l| * hmin) (Out.new k)).integrate q = some (r, o') ∧
      Agree l (fun y i => a i * y i) o o' := by
  have e : (factors hl hc ha).Same p q := ⟨fun x y => by
    funext i
    refine (hf x y i).trans ?_
    show _ = (l⁻¹ : ℝ) • (a i * p.f x y i)
    rw [Complex.real_smul, Complex.ofReal_inv, div_eq_inv_mul], hat, hrt, hd, hfl⟩
  exact agree_of_same e y0 x1 x2 h1 hmin con k

/-- C187: complex conjugates, in the same or the other direction. -/
theorem C187_conj {p q : Prob n} {l : ℝ} (hl : l ≠ 0) (hf : ∀ x y i, q.f (l * x) (fun j => (starRingEnd ℂ) (y j)) i = (starRingEnd ℂ) (p.f x y i) / l)
    (hat : q.atol = p.atol) (hrt : q.rtol = p.rtol) (hd : q.dense = p.dense) (hfl : ∀ x, q.fl (l * x) = l * p.fl x) (y0 : V n) (x1 x2 h1 hmin : ℝ) (con : Con)
    (k : Option ℕ) :
    ((Ode.new con y0 x1 x2 h1 hmin (Out.new k)).integrate p = none ∧
      (Ode.new { con with hnext := l * con.hnext } (fun i => (starRingEnd ℂ) (y0 i)) (l * x1) (l * x2) (|l| * h1) (|l| * hmin) (Out.new k)).integrate q = none) ∨
    ∃ r o o', (Ode.new con y0 x1 x2 h1 hmin (Out.new k)).integrate p = some (r, o) ∧
      (Ode.new { con with hnext := l * con.hnext } (fun i => (starRingEnd ℂ) (y0 i)) (l * x1) (l * x2) (|l| * h1) (|l| * hmin) (Out.new k)).integrate q = some (r, o') ∧
      Agree l (fun y i => (starRingEnd ℂ) (y i)) o o' := by
  have e : (conjugates (n := n) hl).Same p q := ⟨fun x y => by
    funext i
    refine (hf x y i).trans ?_
    show _ = (l⁻¹ : ℝ) • (starRingEnd ℂ) (p.f x y i)
    rw [Complex.real_smul, Complex.ofReal_inv, div_eq_inv_mul], by rw [hat]; exact (one_mul _).symm, hrt, hd, hfl⟩
  exact agree_of_same e y0 x1 x2 h1 hmin con k

theorem Agree.saved {l : ℝ} {U : V n → V n} {o o' : Ode n} (h : Agree l U o o') : o'.out.saved = o.out.saved.map fun r => (l * r.1, U r.2) := by
  unfold Out.saved
  rw [h.rows, h.count]
  rcases o.out.buf with _ | ⟨xs, ys⟩
  · rfl
  · simp only [Option.map_some, ← List.map_take]
    exact List.zip_map

/-- C187: an integration in metres and the same one in millimetres, run backwards, of an imaginary unknown a thousand times smaller. -/
theorem C187_nonvacuous (y0 : V 1) : ∃ o : Ode 1, (Ode.new Con.new (fun i => Complex.I / 1000 * y0 i) 0 (-1000) 100 0 (Out.new (some 0))).integrate
      ⟨fun _ _ _ => -Complex.I / 1000000, 1 / 1000, 0, false, id⟩ = some (.ok (), o) ∧
    o.out.saved.map Prod.fst = [0, -100, -700, -1000] := by
  obtain ⟨o, h1, h2⟩ := plain_fresh Con.new rfl y0
  rcases C187_units (p := unitProb false) (q := ⟨fun _ _ _ => -Complex.I / 1000000, 1 / 1000, 0, false, id⟩) (l := -1000) (c := 1 / 1000) (by norm_num) (by norm_num)
    (a := fun _ => Complex.I / 1000) (fun _ => by norm_num) (fun x y i => by
      show -Complex.I / 1000000 = Complex.I / 1000 * 1 / ((-1000 : ℝ) : ℂ)
      push_cast
      ring) (by norm_num [unitProb]) rfl rfl (fun _ => rfl) y0 0 1 (1 / 10) 0 Con.new (some 0) with ⟨h, -⟩ | ⟨r, o1, o', e1, e2, e3⟩
  · rw [h1] at h; cases h
  · rw [h1] at e1
    obtain ⟨rfl, rfl⟩ := Prod.mk.inj (Option.some.inj e1)
    refine ⟨o', ?_, ?_⟩
    · rw [show ({ Con.new with hnext := -1000 * Con.new.hnext } : Con) = Con.new by simp [Con.new], show (-1000 : ℝ) * 0 = 0 by norm_num,
        show (-1000 : ℝ) * 1 = -1000 by norm_num, show |(-1000 : ℝ)| * (1 / 10) = 100 by norm_num, show |(-1000 : ℝ)| * 0 = 0 by norm_num] at e2
      exact e2
    · rw [e3.saved, List.map_map, show (Prod.fst ∘ fun r : ℝ × V 1 => (-1000 * r.1, fun i => Complex.I / 1000 * r.2 i)) = (-1000 * ·) ∘ Prod.fst from rfl,
        ← List.map_map, h2]
      norm_num

end PyNLO.Ode

namespace PyNLO.Dfg

variable {N : ℕ}

theorem mulFields_eq (u v w : Fin N → ℂ) (y : Fin (3 * N) → ℂ) : mulFields u v w y = fun k => join u v w k * y k := by
  conv_rhs => rw [← join_parts y]
  funext k
  simp only [mulFields, join]
  split_ifs <;> rfl

theorem rhs_mulFields (he : N % 2 = 0) {q : Prob N} {u v w : Fin N → ℂ} (h : MixPhase (N / 2 : ℕ) u v w) (z : ℝ) (y : Fin (3 * N) → ℂ) :
    q.rhs z (mulFields u v w y) = mulFields u v w (q.rhs z y) := by
  unfold Prob.rhs
  cases hd : (q.deriv (FftC.zeros N) z y).1 with
  | ok d => rw [deriv_mul he h hd]
  | error e =>
    have h2 : (q.deriv (FftC.zeros N) z (mulFields u v w y)).1 = .error e := by
      rw [deriv_eq] at hd ⊢
      cases hde : q.deffAt z with
      | error e' => rw [hde] at hd; exact hd
      | ok deff =>
        rw [hde] at hd
        simp only at hd ⊢
        split_ifs at hd ⊢
        exact hd
    rw [h2, mulFields_eq]
    funext k
    exact (mul_zero _).symm

/-- C103 for whole integrations: with factors that respect mixing, the integration returns the fields with the same factors, at every saved position. -/
theorem mixPhase_result (he : N % 2 = 0) {q : Prob N} {u v w : Fin N → ℂ} (h : MixPhase (N / 2 : ℕ) u v w) {p : Ode.Prob (3 * N)} (hp : p.f = q.rhs)
    (y0 : Fin (3 * N) → ℂ) (h1 hmin : ℝ) (con : Ode.Con) (k : Option ℕ) {r : Except PyErr Unit} {o : Ode.Ode (3 * N)}
    (hr : (Ode.Ode.new con y0 0 q.len h1 hmin (Ode.Out.new k)).integrate p = some (r, o)) :
    ∃ o', (Ode.Ode.new con (mulFields u v w y0) 0 q.len h1 hmin (Ode.Out.new k)).integrate p = some (r, o') ∧ Ode.Agree 1 (mulFields u v w) o o' := by
  have hn : ∀ i, ‖join u v w i‖ = 1 := fun i => by
    unfold join
    split_ifs
    · exact (h.unit _).1
    · exact (h.unit _).2.1
    · exact (h.unit _).2.2
  have H := Ode.C187_units (p := p) (q := p) one_ne_zero one_pos hn (fun x y i => by
    rw [one_mul, hp, ← mulFields_eq, rhs_mulFields he h, mulFields_eq, Complex.ofReal_one, div_one]) (one_mul _).symm rfl rfl (fun x => by rw [one_mul, one_mul])
    y0 0 q.len h1 hmin con k
  simp only [one_mul, abs_one, ← mulFields_eq] at H
  rcases H with ⟨H, -⟩ | ⟨r', o1, o', H1, H2, H3⟩
  · rw [H] at hr; cases hr
  · rw [H1] at hr
    obtain ⟨rfl, rfl⟩ := Prod.mk.inj (Option.some.inj hr)
    exact ⟨o', H2, (funext (mulFields_eq u v w) : mulFields u v w = fun y k => join u v w k * y k) ▸ H3⟩

/-- C103: a common delay of the three input fields delays every saved row and the final fields by the same time; steps and positions are the same. -/
theorem C103_delay_result (he : N % 2 = 0) {q : Prob N} (hm : Matched q) (τ : ℝ) {p : Ode.Prob (3 * N)} (hp : p.f = q.rhs)
    (y0 : Fin (3 * N) → ℂ) (h1 hmin : ℝ) (con : Ode.Con) (k : Option ℕ) {r : Except PyErr Unit} {o : Ode.Ode (3 * N)}
    (hr : (Ode.Ode.new con y0 0 q.len h1 hmin (Ode.Out.new k)).integrate p = some (r, o)) :
    let e (w : Wave N) (j : Fin N) := Complex.exp (Complex.I * ((τ * w.W j : ℝ) : ℂ))
    ∃ o', (Ode.Ode.new con (mulFields (e q.p) (e q.s) (e q.i) y0) 0 q.len h1 hmin (Ode.Out.new k)).integrate p = some (r, o') ∧
      Ode.Agree 1 (mulFields (e q.p) (e q.s) (e q.i)) o o' :=
  mixPhase_result he (mixPhase_linear hm τ) hp y0 h1 hmin con k hr

/-- C103: phase shifts `a` of the signal, `b` of the idler and `a + b` of the pump at the input appear on every saved row and on the final fields, and nothing else
changes. -/
theorem C103_phase_result (he : N % 2 = 0) (q : Prob N) (a b : ℝ) {p : Ode.Prob (3 * N)} (hp : p.f = q.rhs)
    (y0 : Fin (3 * N) → ℂ) (h1 hmin : ℝ) (con : Ode.Con) (k : Option ℕ) {r : Except PyErr Unit} {o : Ode.Ode (3 * N)}
    (hr : (Ode.Ode.new con y0 0 q.len h1 hmin (Ode.Out.new k)).integrate p = some (r, o)) :
    let e (x : ℝ) (_ : Fin N) := Complex.exp (Complex.I * (x : ℂ))
    ∃ o', (Ode.Ode.new con (mulFields (e (a + b)) (e a) (e b) y0) 0 q.len h1 hmin (Ode.Out.new k)).integrate p = some (r, o') ∧
      Ode.Agree 1 (mulFields (e (a + b)) (e a) (e b)) o o' := by
  refine mixPhase_result he ⟨fun j => ?_, fun m i j _ => ?_⟩ hp y0 h1 hmin con k hr
  · refine ⟨?_, ?_, ?_⟩ <;> (beta_reduce; rw [mul_comm, Complex.norm_exp_ofReal_mul_I])
  · simp only
    rw [← Complex.exp_add]
    congr 1
    push_cast
    ring

/-- C102 for whole integrations: the velocity of the frame of reference changes nothing in what the integration returns. -/
theorem C102_result (he : N % 2 = 0) {q : Prob N} (hm : Matched q) (v : ℝ) {p p' : Ode.Prob (3 * N)} (hp : p.f = q.rhs) (hp' : p' = { p with f := ({ q with speed := v } : Prob N).rhs })
    (o : Ode.Ode (3 * N)) : o.integrate p' = o.integrate p := by
  have : ({ q with speed := v } : Prob N).rhs = q.rhs := by
    funext z y
    unfold Prob.rhs
    rw [C102_frame he hm v]
  rw [hp', this, ← hp]

end PyNLO.Dfg
