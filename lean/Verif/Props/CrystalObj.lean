import Verif.Model.CrystalObj
import Verif.Props.CrystalDisp

/-! # C146: crystal objects: length, wavenumbers, and the crystal of `Boyd.py` -/

namespace PyNLO.XtalObj

open Real Xtal

/-- The crystal a statement is about, if it changes one. -/
def Op.target : Op → Option ℕ
  | .boyd i | .setT i _ | .setTheta i _ | .setPp i _ | .setPpChirp i _ _ | .setCaching i _ => some i
  | _ => none

theorem on_self (w : World) (i : ℕ) (f : Obj → Except PyErr Obj) (P : Obj → Obj → Prop) (hr : ∀ o, P o o)
    (hf : ∀ o o', f o = .ok o' → P o o') {o : Obj} (h : w.objs[i]? = some o) :
    ∃ o', (w.on i f).objs[i]? = some o' ∧ P o o' := by
  unfold World.on
  rw [h]
  simp only
  rcases hfo : f o with e | o'
  · exact ⟨o, h, hr o⟩
  · have hi : i < w.objs.length := by
      by_contra hi
      rw [List.getElem?_eq_none (by omega)] at h
      cases h
    exact ⟨o', by simp [hi], hf o o' hfo⟩

theorem on_other (w : World) (i j : ℕ) (f : Obj → Except PyErr Obj) (h : j ≠ i) : (w.on i f).objs[j]? = w.objs[j]? := by
  unfold World.on
  rcases w.objs[i]? with _ | o
  · rfl
  · simp only
    rcases f o with e | o'
    · rfl
    · simp only
      rw [List.getElem?_set_ne (Ne.symm h)]

theorem on_cache (w : World) (i : ℕ) (f : Obj → Except PyErr Obj) : (w.on i f).cache = w.cache := by
  unfold World.on
  rcases w.objs[i]? with _ | o
  · rfl
  · simp only
    rcases f o with e | o' <;> rfl

theorem append_get (l : List Obj) (a : Obj) {i : ℕ} {o : Obj} (h : l[i]? = some o) : (l ++ [a])[i]? = some o := by
  have hi : i < l.length := by
    by_contra hi
    rw [List.getElem?_eq_none (by omega)] at h
    cases h
  rw [List.getElem?_append_left hi]; exact h

/-- A relation between the states of one crystal that no method breaks holds after every statement. -/
theorem step_keeps (P : Obj → Obj → Prop) (hr : ∀ o, P o o)
    (h1 : ∀ o, P o o.boyd) (h2 : ∀ T o o', o.setT T = .ok o' → P o o') (h3 : ∀ t o o', o.setTheta t = .ok o' → P o o')
    (h4 : ∀ p o o', o.setPp p = .ok o' → P o o') (h5 : ∀ (a b : ℝ) (o : Obj), P o { o with pp := some (.chirp a b) })
    (h6 : ∀ v o o', o.setCaching v = .ok o' → P o o')
    (w : World) (op : Op) {i : ℕ} {o : Obj} (h : w.objs[i]? = some o) : ∃ o', (w.step op).objs[i]? = some o' ∧ P o o' := by
  have key : ∀ (j : ℕ) (f : Obj → Except PyErr Obj), (∀ o o', f o = .ok o' → P o o') →
      ∃ o', (w.on j f).objs[i]? = some o' ∧ P o o' := by
    intro j f hf
    by_cases hij : i = j
    · subst hij; exact on_self w i f P hr hf h
    · exact ⟨o, by rw [on_other w j i f hij]; exact h, hr o⟩
  cases op with
  | crystal l c => exact ⟨o, append_get _ _ h, hr o⟩
  | ppln T l c => exact ⟨o, append_get _ _ h, hr o⟩
  | agGaSe2 t l c => exact ⟨o, append_get _ _ h, hr o⟩
  | boyd j => exact key j _ fun o o' ho => by cases ho; exact h1 o
  | setT j T => exact key j _ (h2 T)
  | setTheta j t => exact key j _ (h3 t)
  | setPp j p => exact key j _ (h4 p)
  | setPpChirp j a b => exact key j _ fun o o' ho => by cases ho; exact h5 a b o
  | setCaching j v => exact key j _ (h6 v)
  | readN j hs wl ax =>
    refine ⟨o, ?_, hr o⟩
    unfold World.step
    simp only
    rcases w.objs[j]? with _ | o'
    · exact h
    · exact h
  | readK j wl ax => exact ⟨o, h, hr o⟩

theorem setT_ok {T : ℝ} {o o' : Obj} (h : o.setT T = .ok o') : ∃ p, o.med = .ppln p ∧ o' = { o with med := .ppln (p.setT T) } := by
  unfold Obj.setT at h
  rcases hm : o.med with _ | p | b <;> rw [hm] at h <;> simp only at h <;> cases h
  exact ⟨p, rfl, rfl⟩

theorem setTheta_ok {t : ℝ} {o o' : Obj} (h : o.setTheta t = .ok o') :
    ∃ b, o.med = .biref b ∧ o' = { o with med := .biref (b.setTheta t) } := by
  unfold Obj.setTheta at h
  rcases hm : o.med with _ | p | b <;> rw [hm] at h <;> simp only at h <;> cases h
  exact ⟨b, rfl, rfl⟩

theorem setPp_ok {p : Xtal.PpArg} {o o' : Obj} (h : o.setPp p = .ok o') : ∃ q, o' = { o with pp := q } := by
  unfold Obj.setPp at h
  rcases hm : o.med with _ | p | b <;> rw [hm] at h <;> simp only at h <;> cases h
  exact ⟨_, rfl⟩

theorem setCaching_ok {v : CacheArg} {o o' : Obj} (h : o.setCaching v = .ok o') : ∃ b, o' = { o with caching := b } := by
  unfold Obj.setCaching at h
  cases v with
  | bool b => cases h; exact ⟨_, rfl⟩
  | num x =>
    simp only at h
    split_ifs at h
    · cases h; exact ⟨_, rfl⟩
    · cases h; exact ⟨_, rfl⟩
  | other => cases h

theorem run_keeps (P : Obj → Obj → Prop) (hr : ∀ o, P o o) (ht : ∀ a b c, P a b → P b c → P a c)
    (hs : ∀ (w : World) (op : Op) {i : ℕ} {o : Obj}, w.objs[i]? = some o → ∃ o', (w.step op).objs[i]? = some o' ∧ P o o')
    (l : List Op) : ∀ (w : World) {i : ℕ} {o : Obj}, w.objs[i]? = some o → ∃ o', (w.run l).objs[i]? = some o' ∧ P o o' := by
  induction l with
  | nil => intro w i o h; exact ⟨o, h, hr o⟩
  | cons op l ih =>
    intro w i o h
    obtain ⟨o', h', p'⟩ := hs w op h
    obtain ⟨o'', h'', p''⟩ := ih (w.step op) h'
    exact ⟨o'', h'', ht _ _ _ p' p''⟩

/-- C146: a crystal keeps the length it was created with, whatever is done with it and with other crystals. -/
theorem C146_length (w : World) (l : List Op) {i : ℕ} {o : Obj} (h : w.objs[i]? = some o) :
    ∃ o', (w.run l).objs[i]? = some o' ∧ o'.lengthMks = o.lengthMks ∧ o'.lengthNm = o.lengthNm := by
  obtain ⟨o', h1, h2⟩ := run_keeps (fun a b => b.len = a.len) (fun _ => rfl) (fun a b c h1 h2 => h2.trans h1)
    (fun w op i o h => step_keeps (fun a b => b.len = a.len) (fun _ => rfl) (fun _ => rfl)
      (fun T o o' h => by obtain ⟨p, -, rfl⟩ := setT_ok h; rfl) (fun t o o' h => by obtain ⟨b, -, rfl⟩ := setTheta_ok h; rfl)
      (fun p o o' h => by obtain ⟨q, rfl⟩ := setPp_ok h; rfl) (fun _ _ _ => rfl)
      (fun v o o' h => by obtain ⟨b, rfl⟩ := setCaching_ok h; rfl) w op h) l w h
  exact ⟨o', h1, h2, by unfold Obj.lengthNm; rw [h2]⟩

/-- C146: the length is the one that was asked for, one metre if none was, and `length_nm` is the same length in nanometres.  With
`length=None` reading it in nanometres raises `TypeError`. -/
theorem C146_length_values (T t L : ℝ) (c : Option Bool) :
    (∀ o ∈ [Obj.init (some (some L)) c, Obj.ppln T (some (some L)) c, Obj.agGaSe2 t (some (some L)) c],
      o.lengthMks = some L ∧ o.lengthNm = .ok (L * 1e9)) ∧
    (∀ o ∈ [Obj.init none c, Obj.ppln T none c, Obj.agGaSe2 t none c], o.lengthMks = some 1 ∧ o.lengthNm = .ok 1e9) ∧
    ∀ o ∈ [Obj.init (some none) c, Obj.ppln T (some none) c, Obj.agGaSe2 t (some none) c],
      o.lengthMks = none ∧ o.lengthNm = .error .TypeError := by
  refine ⟨?_, ?_, ?_⟩ <;> intro o ho <;> simp only [List.mem_cons, List.not_mem_nil, or_false] at ho <;>
    rcases ho with rfl | rfl | rfl <;> refine ⟨rfl, ?_⟩ <;>
    simp [Obj.lengthNm, Obj.init, Obj.ppln, Obj.agGaSe2]

/-- C146: `get_pulse_k` of a crystal does not depend on what is done with the others, and neither does `get_pulse_n` while its caching
is off. -/
theorem C146_isolated (w : World) (l : List Op) {i : ℕ} {o : Obj} (h : w.objs[i]? = some o) (hl : ∀ op ∈ l, op.target ≠ some i)
    (hash : String) (wl : Vec ℝ) (axis : Option String) :
    (w.run l).pulseK i wl axis = w.pulseK i wl axis ∧
    (o.caching = false → (w.run l).pulseN i hash wl axis = w.pulseN i hash wl axis) := by
  have hs : ∀ (w : World) (op : Op), op.target ≠ some i → w.objs[i]? = some o → (w.step op).objs[i]? = some o := by
    intro w op ht h
    cases op with
    | crystal l c => exact append_get _ _ h
    | ppln T l c => exact append_get _ _ h
    | agGaSe2 t l c => exact append_get _ _ h
    | readN j hs wl ax =>
      unfold World.step
      simp only
      rcases w.objs[j]? with _ | o' <;> exact h
    | readK j wl ax => exact h
    | boyd j => exact (on_other w j i _ fun e => ht (by rw [e]; rfl)).trans h
    | setT j T => exact (on_other w j i _ fun e => ht (by rw [e]; rfl)).trans h
    | setTheta j t => exact (on_other w j i _ fun e => ht (by rw [e]; rfl)).trans h
    | setPp j p => exact (on_other w j i _ fun e => ht (by rw [e]; rfl)).trans h
    | setPpChirp j a b => exact (on_other w j i _ fun e => ht (by rw [e]; rfl)).trans h
    | setCaching j v => exact (on_other w j i _ fun e => ht (by rw [e]; rfl)).trans h
  have hr : ∀ (l : List Op) (w : World), (∀ op ∈ l, op.target ≠ some i) → w.objs[i]? = some o → (w.run l).objs[i]? = some o := by
    intro l
    induction l with
    | nil => intro w _ h; exact h
    | cons op l ih =>
      intro w hl h
      exact ih (w.step op) (fun op h => hl op (List.mem_cons_of_mem _ h)) (hs w op (hl op List.mem_cons_self) h)
  have h' := hr l w hl h
  refine ⟨by unfold World.pulseK; rw [h, h'], fun hc => ?_⟩
  unfold World.pulseN
  rw [h, h']
  simp only
  unfold Obj.pulseN
  rcases o.med with _ | p | b
  · simp only [Medium.idx]
    rw [hc]; rfl
  · simp only [Medium.idx]
    rw [hc]; rfl
  · simp only [Medium.idx]
    rw [hc]; rfl

/-- `n` and `k` describe the same medium: at every wavelength of the grid `k·λ = 2π·n`. -/
def Agree (wl : Vec ℝ) (ns ks : List NFlt) : Prop :=
  ns.length = wl.len ∧ ks.length = wl.len ∧
  ∀ (j : ℕ) (hj : j < wl.len),
    (∀ x, ns[j]? = some (.val x) → ∃ y, ks[j]? = some (.val y) ∧ y * (wl.val ⟨j, hj⟩ * 1e-9) = 2 * π * x) ∧
    (ns[j]? = some .bad → ks[j]? = some .bad)

theorem array_length (x : Idx) (axis : Option String) (wl : Vec ℝ) {ns : List NFlt} (h : x.array axis wl = .ok ns) :
    ns.length = wl.len := by
  unfold Idx.array at h
  have : ∀ (l : List ℝ) (ns : List NFlt), l.mapM (x.n axis) = .ok ns → ns.length = l.length := by
    intro l
    induction l with
    | nil => intro ns h; rw [List.mapM_nil] at h; cases h; rfl
    | cons a l ih =>
      intro ns h
      rw [List.mapM_cons] at h
      rcases h1 : x.n axis a with e | v
      · rw [h1] at h; cases h
      · rw [h1] at h
        rcases h2 : l.mapM (x.n axis) with e | vs
        · rw [h2] at h; cases h
        · rw [h2] at h
          cases h
          simp [ih vs h2]
  rw [this _ _ h, List.length_ofFn]

/-- C146: with caching off `get_pulse_n` and `get_pulse_k` answer together, and they agree: `k λ = 2 π n` at every wavelength, along
every axis and after every history. -/
theorem C146_agree (w : World) (l : List Op) {i : ℕ} {o : Obj} (h : (w.run l).objs[i]? = some o) (hc : o.caching = false)
    (hash : String) (wl : Vec ℝ) (hwl : ∀ j, wl.val j ≠ 0) (axis : Option String) :
    (∃ ns ks, (w.run l).pulseN i hash wl axis = .ok ns ∧ (w.run l).pulseK i wl axis = .ok ks ∧ Agree wl ns ks) ∨
    ∃ e, (w.run l).pulseN i hash wl axis = .error e ∧ (w.run l).pulseK i wl axis = .error e := by
  unfold World.pulseN World.pulseK
  rw [h]
  simp only
  unfold Obj.pulseN Obj.pulseK
  rcases hm : o.med.idx o.caching with _ | x
  · right
    simp only [hc]
    exact ⟨_, rfl, rfl⟩
  · have hx : x.caching = false := by
      rw [hc] at hm
      rcases hmed : o.med with _ | p | b <;> rw [hmed] at hm
      · cases hm
      · cases hm; rfl
      · cases hm; rfl
    simp only
    unfold getPulseN
    rw [hx]
    simp only [Bool.false_eq_true, if_false]
    rcases ha : x.array axis wl with e | ns
    · right; exact ⟨e, rfl, rfl⟩
    · left
      have hlen := array_length x axis wl ha
      refine ⟨ns, _, rfl, rfl, hlen, by simp [hlen], ?_⟩
      intro j hj
      have hw : wl.val ⟨j, hj⟩ * 1e-9 ≠ 0 := mul_ne_zero (hwl _) (by norm_num)
      have hget : (List.ofFn wl.val)[j]? = some (wl.val ⟨j, hj⟩) := by simp [hj]
      constructor
      · intro v hv
        refine ⟨2 * π * v / (wl.val ⟨j, hj⟩ * 1e-9), ?_, div_mul_cancel₀ _ hw⟩
        rw [List.getElem?_zipWith, hv, hget]
        simp only [kEntry, if_neg hw, NFlt.map]
      · intro hv
        rw [List.getElem?_zipWith, hv, hget]
        simp only [kEntry, if_neg hw, NFlt.map]

theorem first_read (p : PPLN) (hash : String) (wl : Vec ℝ) (axis : Option String) :
    (getPulseN (p.idx true) hash wl axis fun _ => none).2 =
      Function.update (fun _ => none) (hash ++ strAxis axis) (some ((List.ofFn wl.val).map p.n)) := by
  unfold getPulseN
  rw [if_pos (show (p.idx true).caching = true from rfl), ppln_array]

/-- C146 refuted with caching on: a PPLN crystal whose index has been read once keeps that index after `set_T`, while `get_pulse_k`
follows the temperature.  From then on `k λ = 2 π n` fails at every wavelength between 500 and 4000 nm. -/
theorem C146_cached_refuted (hash : String) (wl : Vec ℝ) (hn : 0 < wl.len) (hwl : ∀ j, 500 ≤ wl.val j ∧ wl.val j ≤ 4000) :
    ∃ ns ks, (World.start.run [.ppln 24.5 none (some true), .readN 0 hash wl none, .setT 0 124.5]).pulseN 0 hash wl none = .ok ns ∧
      (World.start.run [.ppln 24.5 none (some true), .readN 0 hash wl none, .setT 0 124.5]).pulseK 0 wl none = .ok ks ∧
      ∀ j (hj : j < wl.len), ∃ x y, ns[j]? = some (.val x) ∧ ks[j]? = some (.val y) ∧ 2 * π * x < y * (wl.val ⟨j, hj⟩ * 1e-9) := by
  refine ⟨(List.ofFn wl.val).map (PPLN.load 24.5).n,
    List.zipWith (fun n l => kEntry n (l * 1e-9)) ((List.ofFn wl.val).map (PPLN.load 124.5).n) (List.ofFn wl.val), ?_, ?_, ?_⟩
  · show (getPulseN (((PPLN.load 24.5).setT 124.5).idx true) hash wl none
      (getPulseN ((PPLN.load 24.5).idx true) hash wl none fun _ => none).2).1 = _
    rw [first_read, getPulseN, if_pos (show (((PPLN.load 24.5).setT 124.5).idx true).caching = true from rfl), Function.update_self]
  · show (match (((PPLN.load 24.5).setT 124.5).idx true).array none wl with
      | .error e => Except.error e
      | .ok ns => Except.ok (List.zipWith (fun n l => kEntry n (l * 1e-9)) ns (List.ofFn wl.val))) = _
    rw [ppln_array, show ((PPLN.load 24.5).setT 124.5).n = (PPLN.load 124.5).n from
      funext fun x => (C90_temperature .Gayer_5pctMg 24.5 [] 124.5 x).1]
  · intro j hj
    obtain ⟨x, y, hx, hy, hxy⟩ := C90_thermal 24.5 124.5 (wl.val ⟨j, hj⟩) (by norm_num) (by norm_num) (by norm_num) (hwl _).1 (hwl _).2
    have hw : 0 < wl.val ⟨j, hj⟩ * 1e-9 := mul_pos (by linarith [(hwl ⟨j, hj⟩).1]) (by norm_num)
    refine ⟨x, 2 * π * y / (wl.val ⟨j, hj⟩ * 1e-9), by simp [hj, hx], ?_, ?_⟩
    · rw [List.getElem?_zipWith]
      simp only [List.getElem?_map, List.getElem?_ofFn, hj, dif_pos, Option.map_some, hy, kEntry, if_neg hw.ne', NFlt.map]
    · rw [div_mul_cancel₀ _ hw.ne']
      nlinarith [pi_pos]

/-- C146: `set_caching` takes `True`, `False`, and numbers equal to them; anything else is refused. -/
theorem C146_set_caching (o : Obj) :
    (∀ b, o.setCaching (.bool b) = .ok { o with caching := b }) ∧
    (∀ x, (∃ o', o.setCaching (.num x) = .ok o') ↔ x = 0 ∨ x = 1) ∧ o.setCaching .other = .error .AssertionError := by
  refine ⟨fun _ => rfl, fun x => ?_, rfl⟩
  unfold Obj.setCaching
  simp only
  constructor
  · rintro ⟨o', h⟩
    split_ifs at h with h1 h0
    · exact .inr h1
    · exact .inl h0
  · rintro (h | h) <;> subst h
    · exact ⟨{ o with caching := false }, by rw [if_neg (by norm_num), if_pos rfl]⟩
    · exact ⟨{ o with caching := true }, by rw [if_pos rfl]⟩

/-- C146: the methods of one kind of crystal exist on that kind only; a call on another kind raises `AttributeError`. -/
theorem C146_methods (o : Obj) (x : ℝ) (v : Xtal.PpArg) :
    ((∃ p, o.med = .ppln p) ∧ (∃ o', o.setT x = .ok o') ∧ (∃ o', o.setPp v = .ok o') ∨
      (∀ p, o.med ≠ .ppln p) ∧ o.setT x = .error .AttributeError ∧ o.setPp v = .error .AttributeError) ∧
    ((∃ b, o.med = .biref b) ∧ (∃ o', o.setTheta x = .ok o') ∨ (∀ b, o.med ≠ .biref b) ∧ o.setTheta x = .error .AttributeError) := by
  unfold Obj.setT Obj.setPp Obj.setTheta
  rcases o.med with _ | p | b <;> simp

/-- C146 refuted for `Boyd.load`: the crystal of `Boyd.py` has no index.  However it is used afterwards, `crystal.get_n(wl)` raises
`TypeError`; the constant index 2 comes out only when the crystal is passed a second time.  `get_pulse_k` raises `AttributeError`, and so does
`get_pulse_n` with caching off. -/
theorem C146_boyd_refuted (w : World) (len : Option (Option ℝ)) (c : Option Bool) (l : List Op) :
    ∃ o, (((w.step (.crystal len c)).step (.boyd w.objs.length)).run l).objs[w.objs.length]? = some o ∧
      o.mode = some "simple" ∧ o.deff = some 4e-12 ∧
      (∀ x, o.getN [.inr x] = .error .TypeError) ∧ (∀ x, o.getN [.inl o, .inr x] = .ok 2) ∧
      (∀ wl axis, (((w.step (.crystal len c)).step (.boyd w.objs.length)).run l).kInCrystal axis wl w.objs.length = .error .AttributeError) ∧
      (o.caching = false → ∀ hash wl axis,
        (((w.step (.crystal len c)).step (.boyd w.objs.length)).run l).nInCrystal axis hash wl w.objs.length = .error .AttributeError) := by
  have h0 : ((w.step (.crystal len c)).step (.boyd w.objs.length)).objs[w.objs.length]? = some (Obj.init len c).boyd := by
    simp [World.step, World.on]
  obtain ⟨o, h1, h2⟩ := run_keeps
    (fun a b => a.med = .bare ∧ a.mode = some "simple" ∧ a.deff = some 4e-12 ∧ a.n0 = some 2 →
      b.med = .bare ∧ b.mode = some "simple" ∧ b.deff = some 4e-12 ∧ b.n0 = some 2)
    (fun _ h => h) (fun a b c h1 h2 h => h2 (h1 h))
    (fun w op i o h => step_keeps (fun a b => a.med = .bare ∧ a.mode = some "simple" ∧ a.deff = some 4e-12 ∧ a.n0 = some 2 →
        b.med = .bare ∧ b.mode = some "simple" ∧ b.deff = some 4e-12 ∧ b.n0 = some 2) (fun _ h => h)
      (fun _ h => ⟨h.1, rfl, rfl, rfl⟩)
      (fun T o o' h hb => by obtain ⟨p, hp, rfl⟩ := setT_ok h; rw [hb.1] at hp; cases hp)
      (fun t o o' h hb => by obtain ⟨b, hp, rfl⟩ := setTheta_ok h; rw [hb.1] at hp; cases hp)
      (fun p o o' h hb => by obtain ⟨q, rfl⟩ := setPp_ok h; exact hb) (fun _ _ _ hb => hb)
      (fun v o o' h hb => by obtain ⟨b, rfl⟩ := setCaching_ok h; exact hb) w op h) l _ h0
  obtain ⟨hm, hmode, hdeff, hn0⟩ := h2 ⟨rfl, rfl, rfl, rfl⟩
  refine ⟨o, h1, hmode, hdeff, ?_, ?_, ?_, ?_⟩
  · intro x; unfold Obj.getN; rw [hn0]
  · intro x; unfold Obj.getN; simp only [hn0]
  · intro wl axis
    unfold World.kInCrystal World.pulseK
    rw [h1]
    simp only [Obj.pulseK, hm, Medium.idx]
  · intro hc hash wl axis
    unfold World.nInCrystal World.pulseN
    rw [h1]
    simp only [Obj.pulseN, hm, Medium.idx, hc, Bool.false_eq_true, if_false]

/-- C146 refuted for `Boyd.load` with caching on: after any PPLN crystal has been asked for its index on the same grid, the crystal of
`Boyd.py` answers with the index of that PPLN crystal. -/
theorem C146_boyd_cached_refuted (T : ℝ) (hash : String) (wl : Vec ℝ) (axis : Option String) :
    (World.start.run [.ppln T none (some true), .crystal none (some true), .boyd 1, .readN 0 hash wl axis]).pulseN 1 hash wl axis =
      .ok ((List.ofFn wl.val).map (PPLN.load T).n) := by
  show (match (getPulseN ((PPLN.load T).idx true) hash wl axis fun _ => none).2 (hash ++ strAxis axis) with
      | some ns => (Except.ok ns, (getPulseN ((PPLN.load T).idx true) hash wl axis fun _ => none).2)
      | none => (Except.error PyErr.AttributeError, (getPulseN ((PPLN.load T).idx true) hash wl axis fun _ => none).2)).1 = _
  rw [first_read, Function.update_self]

theorem mapM_ok {α β : Type} (f : α → β) (l : List α) : (l.mapM fun a => (Except.ok (f a) : Except PyErr β)) = .ok (l.map f) := by
  induction l with
  | nil => rfl
  | cons a l ih =>
    rw [List.mapM_cons, ih]
    rfl

/-- C146: in a uniaxial crystal that does not cache, a beam sees the index along its own axis: the ordinary one, the extraordinary one, or the
mixture at the angle of the crystal, which is also what a beam without axis sees; its wave vector is `2 π n / λ` for the same index.  A beam along an
axis of another name raises `ValueError`. -/
theorem C146_beam_axis (w : World) {i : ℕ} {o : Obj} {b : Biref} (h : w.objs[i]? = some o) (hb : o.med = .biref b) (hc : o.caching = false)
    (hash : String) (wl : Vec ℝ) :
    (∀ axis n, (axis, n) ∈ [(some "o", b.no), (some "e", b.ne), (some "mix", fun l => mixIndex b.theta (b.no l) (b.ne l)),
        (none, fun l => mixIndex b.theta (b.no l) (b.ne l))] →
      w.nInCrystal axis hash wl i = .ok (List.ofFn fun j => n (wl.val j)) ∧
      w.kInCrystal axis wl i = .ok (List.ofFn fun j => kEntry (n (wl.val j)) (wl.val j * 1e-9))) ∧
    ∀ s, s ≠ "o" → s ≠ "e" → s ≠ "mix" → 0 < wl.len →
      w.nInCrystal (some s) hash wl i = .error .ValueError ∧ w.kInCrystal (some s) wl i = .error .ValueError := by
  have hN : ∀ axis, w.nInCrystal axis hash wl i = (b.idx false).array axis wl := by
    intro axis
    unfold World.nInCrystal World.pulseN
    rw [h]
    simp only [Obj.pulseN, hb, hc, Medium.idx]
    rfl
  have hK : ∀ axis, w.kInCrystal axis wl i = match (b.idx false).array axis wl with
      | .error e => .error e
      | .ok ns => .ok (List.zipWith (fun n l => kEntry n (l * 1e-9)) ns (List.ofFn wl.val)) := by
    intro axis
    unfold World.kInCrystal World.pulseK
    rw [h]
    simp only [Obj.pulseK, hb, hc, Medium.idx]
    rfl
  constructor
  · intro axis n hax
    have key : (b.idx false).array axis wl = .ok (List.ofFn fun j => n (wl.val j)) := by
      have e : (b.idx false).n axis = fun l => .ok (n l) := by
        simp only [List.mem_cons, Prod.mk.injEq, List.not_mem_nil, or_false] at hax
        rcases hax with ⟨rfl, rfl⟩ | ⟨rfl, rfl⟩ | ⟨rfl, rfl⟩ | ⟨rfl, rfl⟩ <;> funext l <;> simp [Biref.idx, Biref.n]
      rw [Idx.array, e, mapM_ok, List.map_ofFn]
      rfl
    refine ⟨by rw [hN, key], ?_⟩
    rw [hK, key]
    simp only [Except.ok.injEq]
    apply List.ext_getElem
    · simp
    · intro j h1 h2
      simp
  · intro s h1 h2 h3 hl
    have key : (b.idx false).array (some s) wl = .error .ValueError := by
      have e : (b.idx false).n (some s) = fun _ => .error .ValueError := by
        funext l
        simp [Biref.idx, Biref.n, h1, h2, h3]
      rw [Idx.array, e]
      obtain ⟨len, val⟩ := wl
      obtain ⟨m, rfl⟩ : ∃ m, len = m + 1 := ⟨len - 1, by simp only at hl; omega⟩
      rw [List.ofFn_succ, List.mapM_cons]
      rfl
    exact ⟨by rw [hN, key], by rw [hK, key]⟩

/-- The hypotheses are met by a crystal of AgGaSe2 made without parameters. -/
theorem C146_beam_axis_nonvacuous : ∃ o b, (World.start.run [.agGaSe2 0.5 none none]).objs[0]? = some o ∧ o.med = .biref b ∧ o.caching = false ∧
    b.theta = (0.5 : ℝ) :=
  ⟨_, Xtal.agGaSe2 0.5, rfl, rfl, rfl, rfl⟩

/-- The hypotheses are met: a PPLN crystal of 1 cm, used next to a crystal with caching and one of `Boyd.py`, keeps its length, and its
index and wavenumbers agree on a grid of two wavelengths. -/
theorem C146_nonvacuous (hash : String) :
    let l : List Op := [.ppln 30 (some (some 0.01)) none, .agGaSe2 0.5 none (some true), .crystal none none, .boyd 2, .setT 0 40, .setCaching 1 (.num 0)]
    ∃ o, (World.start.run l).objs[0]? = some o ∧ o.lengthMks = some (0.01 : ℝ) ∧
      ∃ ns ks, (World.start.run l).pulseN 0 hash ⟨2, ![1064, 1550]⟩ none = .ok ns ∧
        (World.start.run l).pulseK 0 ⟨2, ![1064, 1550]⟩ none = .ok ks ∧ Agree ⟨2, ![1064, 1550]⟩ ns ks ∧
        ∃ x y, ns = [.val x, .val y] ∧ y < x := by
  intro l
  have h0 : (World.start.run [.ppln 30 (some (some 0.01)) none]).objs[0]? = some (Obj.ppln 30 (some (some 0.01)) none) := rfl
  obtain ⟨o, h1, h2, -⟩ := C146_length _ [.agGaSe2 0.5 none (some true), .crystal none none, .boyd 2, .setT 0 40, .setCaching 1 (.num 0)] h0
  have ho : (World.start.run l).objs[0]? = some { Obj.ppln 30 (some (some 0.01)) none with med := .ppln ((PPLN.load 30).setT 40) } := by
    simp [l, World.run, World.step, World.start, World.on, Obj.setT, Obj.setCaching, Obj.ppln, Obj.init]
  refine ⟨o, h1, h2, ?_⟩
  have hn : (World.start.run l).pulseN 0 hash ⟨2, ![1064, 1550]⟩ none =
      .ok ((List.ofFn (![1064, 1550] : Fin 2 → ℝ)).map ((PPLN.load 30).setT 40).n) := by
    unfold World.pulseN
    rw [ho]
    show (getPulseN (((PPLN.load 30).setT 40).idx false) hash ⟨2, ![1064, 1550]⟩ none _).1 = _
    rw [(C64_off ((PPLN.load 30).setT 40) (Xtal.agGaSe2 0) hash ⟨2, ![1064, 1550]⟩ none _).1]
  rcases C146_agree World.start l ho rfl hash ⟨2, ![1064, 1550]⟩ (by intro j; fin_cases j <;> norm_num) none with
    ⟨ns, ks, e1, e2, e3⟩ | ⟨e, e1, -⟩
  · refine ⟨ns, ks, e1, e2, e3, ?_⟩
    rw [hn] at e1
    obtain ⟨x, y, hx, hy, hxy⟩ := C91_normal_dispersion .Gayer_5pctMg 40 1064 1550 (by norm_num) (by norm_num) (by norm_num) (by norm_num) (by norm_num)
    refine ⟨x, y, ?_, hxy⟩
    rw [← Except.ok.inj e1]
    have hT : ((PPLN.load 30).setT 40).n = (PPLN.load 40).n := funext fun x => (C90_temperature .Gayer_5pctMg 30 [] 40 x).1
    simp [hT, hx, hy]
  · rw [hn] at e1; cases e1

end PyNLO.XtalObj
