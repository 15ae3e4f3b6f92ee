import Verif.Model.Ode

/-!
# Output buffer of the integrator (C52, C87)
-/

namespace PyNLO.Ode

variable {n : ℕ}

/-- What the user reads: `out.xsave[:out.count]` next to `out.ysave[:out.count]`. -/
def Out.saved (o : Out n) : List (ℝ × V n) :=
  match o.buf with
  | none => []
  | some (xs, ys) => (xs.take o.count).zip (ys.take o.count)

/-- The arrays have `kmax` rows and the count does not exceed it. -/
def Out.Ok (o : Out n) : Prop :=
  0 < o.kmax ∧ (o.count : ℤ) ≤ o.kmax ∧
    ∃ xs ys, o.buf = some (xs, ys) ∧ xs.length = o.kmax.toNat ∧ ys.length = o.kmax.toNat

/-- The fields of an output that saving leaves alone. -/
def Out.SameGrid (o o' : Out n) : Prop :=
  o'.dense = o.dense ∧ o'.x1 = o.x1 ∧ o'.x2 = o.x2 ∧ o'.xout = o.xout ∧ o'.dxout = o.dxout ∧ o'.nsave = o.nsave

theorem take_succ_set {γ : Type*} (zs : List γ) (z : γ) {k : ℕ} (hz : k < zs.length) :
    (zs.set k z).take (k + 1) = zs.take k ++ [z] := by
  rw [List.take_add_one]
  simp [hz, List.take_set_of_le]

theorem zip_set_take {α β : Type*} (xs : List α) (ys : List β) (k : ℕ) (x : α) (y : β) (hx : k < xs.length)
    (hy : k < ys.length) :
    ((xs.set k x).take (k + 1)).zip ((ys.set k y).take (k + 1)) = (xs.take k).zip (ys.take k) ++ [(x, y)] := by
  rw [take_succ_set xs x hx, take_succ_set ys y hy, List.zip_append (by simp; omega)]
  simp

theorem Out.resize_ok {o : Out n} (h : o.Ok) :
    o.resize.Ok ∧ o.resize.saved = o.saved ∧ o.resize.count = o.count ∧ (o.resize.count : ℤ) < o.resize.kmax
      ∧ o.SameGrid o.resize := by
  obtain ⟨h0, h1, xs, ys, hb, hx, hy⟩ := h
  refine ⟨⟨?_, ?_, ?_⟩, ?_, rfl, ?_, rfl, rfl, rfl, rfl, rfl, rfl⟩
  · simp only [resize]; omega
  · simp only [resize]; omega
  · refine ⟨xs ++ List.replicate ((o.kmax * 2).toNat - xs.length) 0,
      ys ++ List.replicate ((o.kmax * 2).toNat - ys.length) 0, by simp [resize, hb], ?_, ?_⟩
    · simp only [resize, List.length_append, List.length_replicate]; omega
    · simp only [resize, List.length_append, List.length_replicate]; omega
  · simp only [saved, resize, hb, Option.map_some]
    rw [List.take_append_of_le_length (by omega), List.take_append_of_le_length (by omega)]
  · simp only [resize]; omega

theorem Out.store_ok {o : Out n} (h : o.Ok) (hc : (o.count : ℤ) < o.kmax) (x : ℝ) (y : V n) :
    ∃ o', o.store x y = (.ok (), o') ∧ o'.Ok ∧ o'.saved = o.saved ++ [(x, y)] ∧ o'.count = o.count + 1
      ∧ o.SameGrid o' := by
  obtain ⟨h0, h1, xs, ys, hb, hx, hy⟩ := h
  have hlt : o.count < ys.length := by omega
  refine ⟨{ o with buf := some (xs.set o.count x, ys.set o.count y), count := o.count + 1 },
    by simp [store, hb, hlt], ⟨h0, by push_cast; omega, _, _, rfl, by simpa using hx, by simpa using hy⟩, ?_, rfl,
    rfl, rfl, rfl, rfl, rfl, rfl⟩
  simp only [saved, hb]
  exact zip_set_take _ _ _ _ _ (by omega) hlt

/-- Making room before a store. -/
theorem Out.room {o : Out n} (h : o.Ok) :
    ∃ o', (if (o.count : ℤ) = o.kmax then o.resize else o) = o' ∧ o'.Ok ∧ o'.saved = o.saved ∧ o'.count = o.count
      ∧ (o'.count : ℤ) < o'.kmax ∧ o.SameGrid o' := by
  by_cases hc : (o.count : ℤ) = o.kmax
  · rw [if_pos hc]
    obtain ⟨a, b, c, d, e⟩ := Out.resize_ok h
    exact ⟨_, rfl, a, b, c, d, e⟩
  · rw [if_neg hc]
    exact ⟨_, rfl, h, rfl, rfl, by have := h.2.1; omega, rfl, rfl, rfl, rfl, rfl, rfl⟩

theorem Out.SameGrid.trans {a b c : Out n} (h : a.SameGrid b) (h' : b.SameGrid c) : a.SameGrid c := by
  obtain ⟨h1, h2, h3, h4, h5, h6⟩ := h
  obtain ⟨k1, k2, k3, k4, k5, k6⟩ := h'
  exact ⟨k1.trans h1, k2.trans h2, k3.trans h3, k4.trans h4, k5.trans h5, k6.trans h6⟩

theorem Out.save_ok {o : Out n} (h : o.Ok) (x : ℝ) (y : V n) :
    ∃ o', o.save x y = (.ok (), o') ∧ o'.Ok ∧ o'.saved = o.saved ++ [(x, y)] ∧ o'.count = o.count + 1
      ∧ o.SameGrid o' := by
  obtain ⟨u, hu, huok, hus, huc, hult, hug⟩ := Out.room h
  obtain ⟨v, hv, hvok, hvs, hvc, hvg⟩ := Out.store_ok huok hult x y
  obtain ⟨h0, h1, xs, ys, hb, hx, hy⟩ := h
  refine ⟨v, ?_, hvok, by rw [hvs, hus], by rw [hvc, huc], hug.trans hvg⟩
  simp only [save, hb]
  rw [if_neg (by omega), hu, hv]

theorem Out.saveDense_ok {o : Out n} (h : o.Ok) (x : ℝ) (y : V n) :
    ∃ o', o.saveDense x y = (.ok (), o') ∧ o'.Ok ∧ o'.saved = o.saved ++ [(x, y)] ∧ o'.count = o.count + 1
      ∧ o.SameGrid o' := by
  obtain ⟨u, hu, huok, hus, huc, hult, hug⟩ := Out.room h
  obtain ⟨v, hv, hvok, hvs, hvc, hvg⟩ := Out.store_ok huok hult x y
  refine ⟨v, ?_, hvok, by rw [hvs, hus], by rw [hvc, huc], hug.trans hvg⟩
  simp only [saveDense]
  rw [hu]
  obtain ⟨_, _, xs, ys, hb, _, _⟩ := huok
  simp only [hb]
  exact hv

theorem Out.init_ok {o : Out n} (h : 0 < o.kmax) (hc : (o.count : ℤ) ≤ o.kmax) (xlo xhi : ℝ) :
    (o.init xlo xhi).Ok ∧ (o.init xlo xhi).count = o.count := by
  unfold init
  rw [if_neg (by omega)]
  cases hd : o.dense <;> simp only <;>
    exact ⟨⟨h, hc, _, _, rfl, by simp, by simp⟩, rfl⟩

/-! ## C52: the buffer is a faithful log -/

/-- A call by the integrator: `save(x, y)`, or `save_dense` at `x` where the interpolant is `y`. -/
structure SaveCall (n : ℕ) where
  dense : Bool
  x : ℝ
  y : V n

/-- A sequence of calls. -/
def runSaves (o : Out n) : List (SaveCall n) → Except PyErr Unit × Out n
  | [] => (.ok (), o)
  | c :: cs =>
    match if c.dense then o.saveDense c.x c.y else o.save c.x c.y with
    | (.error e, o) => (.error e, o)
    | (.ok _, o) => runSaves o cs

theorem runSaves_ok (cs : List (SaveCall n)) {o : Out n} (h : o.Ok) :
    ∃ o', runSaves o cs = (.ok (), o') ∧ o'.Ok ∧ o'.saved = o.saved ++ cs.map (fun c => (c.x, c.y))
      ∧ o'.count = o.count + cs.length := by
  induction cs generalizing o with
  | nil => exact ⟨o, rfl, h, by simp, by simp⟩
  | cons c cs ih =>
    have : ∃ o', (if c.dense then o.saveDense c.x c.y else o.save c.x c.y) = (.ok (), o') ∧ o'.Ok
        ∧ o'.saved = o.saved ++ [(c.x, c.y)] ∧ o'.count = o.count + 1 ∧ o.SameGrid o' := by
      cases c.dense
      · exact Out.save_ok h _ _
      · exact Out.saveDense_ok h _ _
    obtain ⟨u, hu, huok, hus, huc, -⟩ := this
    obtain ⟨v, hv, hvok, hvs, hvc⟩ := ih huok
    refine ⟨v, by simp only [runSaves, hu, hv], hvok, by rw [hvs, hus]; simp, by rw [hvc, huc]; simp; omega⟩

/-- C52: after any sequence of saves on a freshly initialised `Output(nsaves)`, none of which raises, the
first `count` rows are exactly the saved pairs, in order, however often the arrays were enlarged. -/
theorem C52_log (nsaves : ℕ) (xlo xhi : ℝ) (cs : List (SaveCall n)) :
    ∃ o', runSaves ((Out.new (some nsaves)).init xlo xhi) cs = (.ok (), o')
      ∧ o'.saved = cs.map (fun c => (c.x, c.y)) ∧ o'.count = cs.length := by
  have h := Out.init_ok (o := (Out.new (some nsaves) : Out n)) (by simp [Out.new]) (by simp [Out.new]) xlo xhi
  obtain ⟨o', h1, -, h2, h3⟩ := runSaves_ok cs h.1
  refine ⟨o', h1, ?_, by rw [h3, h.2]; simp [Out.new]⟩
  rw [h2]
  have : (Out.init (Out.new (some nsaves) : Out n) xlo xhi).saved = [] := by
    obtain ⟨_, _, xs, ys, hb, _, _⟩ := h.1
    have h0 : (Out.init (Out.new (some nsaves) : Out n) xlo xhi).count = 0 := h.2
    simp only [Out.saved, hb, h0, List.take_zero, List.zip_nil_left]
  simp [this]

/-- C52: more pairs than the initial 500 rows survive the enlargement, e.g. the first and last of 2000. -/
theorem C52_log_witness :
    ∃ o' : Out 1, runSaves ((Out.new (some 7)).init 0 1)
        ((List.range 2000).map fun i : ℕ => ⟨i % 2 = 0, (i : ℝ), fun _ => (i : ℂ)⟩) = (.ok (), o')
      ∧ o'.count = 2000 ∧ o'.saved.head? = some (0, fun _ => 0) ∧ o'.saved.getLast? = some (1999, fun _ => 1999) := by
  obtain ⟨o', h1, h2, h3⟩ := C52_log (n := 1) 7 0 1
    ((List.range 2000).map fun i : ℕ => ⟨i % 2 = 0, (i : ℝ), fun _ => (i : ℂ)⟩)
  refine ⟨o', h1, by simpa using h3, ?_, ?_⟩
  · rw [h2]; simp [List.head?_range]
  · rw [h2]; simp [List.getLast?_range]

/-- C52: an `Output()` made without `nsaves` cannot record anything: its arrays do not exist and the first
`save` raises `AttributeError`. -/
theorem C52_no_nsaves_refuted (xlo xhi x : ℝ) (y : V n) :
    (((Out.new none : Out n).init xlo xhi).save x y).1 = .error .AttributeError := by
  simp [Out.new, Out.init, Out.save]

/-! ## C87: reusing an `Output` -/

/-- C87: initialising an `Output` that already holds pairs for a second integration does not start a new
log: the old rows are overwritten with zeros but still counted, and the new pairs follow them. -/
theorem C87_reuse_refuted (nsaves : ℕ) (cs cs' : List (SaveCall n)) (o : Out n) (xlo xhi xlo' xhi' : ℝ)
    (h : runSaves ((Out.new (some nsaves)).init xlo xhi) cs = (.ok (), o)) :
    ∃ o', runSaves (o.init xlo' xhi') cs' = (.ok (), o') ∧ o'.count = cs.length + cs'.length
      ∧ o'.saved = List.replicate cs.length (0, 0) ++ cs'.map (fun c => (c.x, c.y)) := by
  have h0 := Out.init_ok (o := (Out.new (some nsaves) : Out n)) (by simp [Out.new]) (by simp [Out.new]) xlo xhi
  obtain ⟨u, h1, huok, -, h3⟩ := runSaves_ok cs h0.1
  rw [h] at h1
  obtain rfl : o = u := (Prod.mk.inj h1).2
  have hcount : o.count = cs.length := by rw [h3, h0.2]; simp [Out.new]
  have hinit := Out.init_ok huok.1 huok.2.1 xlo' xhi'
  obtain ⟨o', k1, -, k2, k3⟩ := runSaves_ok cs' hinit.1
  refine ⟨o', k1, by rw [k3, hinit.2, hcount], ?_⟩
  rw [k2]
  congr 1
  have hle := huok.2.1
  unfold Out.init
  rw [if_neg (by have := huok.1; omega)]
  have : ∀ k : ℕ, o.count ≤ k → ((List.replicate k (0 : ℝ)).take o.count).zip ((List.replicate k (0 : V n)).take o.count)
      = List.replicate cs.length (0, 0) := by
    intro k hk
    rw [List.take_replicate, List.take_replicate, List.zip_replicate]
    congr 1
    omega
  cases hd : o.dense <;> simp only [Out.saved] <;> exact this _ (by omega)

/-- C87: the hypothesis is met, e.g. one pair saved by the first integration and one by the second: the first
row is now a spurious `(0, 0)`. -/
theorem C87_reuse_witness :
    ∃ o o' : Out 1, runSaves ((Out.new (some 1)).init 3 4) [⟨false, 3, fun _ => 5⟩] = (.ok (), o)
      ∧ runSaves (o.init 3 4) [⟨false, 3, fun _ => 5⟩] = (.ok (), o')
      ∧ o.saved = [(3, fun _ => 5)] ∧ o'.saved = [(0, 0), (3, fun _ => 5)] := by
  obtain ⟨o, h1, h2, -⟩ := C52_log (n := 1) 1 3 4 [⟨false, 3, fun _ => 5⟩]
  obtain ⟨o', k1, -, k2⟩ := C87_reuse_refuted 1 _ [⟨false, 3, fun _ => 5⟩] o 3 4 3 4 h1
  exact ⟨o, o', h1, k1, by simpa using h2, by simpa using k2⟩

end PyNLO.Ode
