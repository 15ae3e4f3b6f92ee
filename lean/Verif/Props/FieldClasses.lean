import Verif.Model.FieldClasses
import Mathlib.Tactic.IntervalCases
import Mathlib.Tactic.NormNum
import Mathlib.Tactic.Linarith
import Mathlib.Data.List.GetD

/-!
# C81, C105: containers for the three fields
-/

namespace PyNLO.FieldClasses

open PyM

/-! ## Overlap -/

/-- C81: the outcome of `calculate_overlap` for integer arguments. -/
theorem C81_overlap (p s i : ℝ) (A B : ℤ) : calculateOverlap (.init p s i) (.int A) (.int B) =
    if 0 ≤ A ∧ A ≤ 2 ∧ 0 ≤ B ∧ B ≤ 2 then
      .ok (((if A = 0 then p else if A = 1 then s else i) + (if B = 0 then p else if B = 1 then s else i)) / 2)
    else if 0 ≤ A ∧ A ≤ 3 ∧ 0 ≤ B ∧ B ≤ 3 then .error .IndexError else .error .ValueError := by
  by_cases h : 0 ≤ A ∧ A ≤ 3 ∧ 0 ≤ B ∧ B ≤ 3
  · obtain ⟨h1, h2, h3, h4⟩ := h
    interval_cases A <;> interval_cases B <;> simp [calculateOverlap, BeamParameters.init, item]
  · rw [if_neg (by omega), if_neg h]
    simp only [calculateOverlap]
    rw [if_pos (by omega)]

/-- Anything but two integers raises `TypeError`. -/
theorem C81_overlap_type (b : BeamParameters) (A B : Arg) (h : A = .other ∨ B = .other) :
    calculateOverlap b A B = .error .TypeError := by
  rcases h with rfl | rfl
  · rfl
  · cases A <;> rfl

/-- The overlap part of C81 is refuted: index 3 is out of range and raises `IndexError`. -/
theorem C81_overlap_refuted (p s i : ℝ) : calculateOverlap (.init p s i) (.int 0) (.int 3) = .error .IndexError ∧
    calculateOverlap (.init p s i) (.int 0) (.int 3) ≠ .error .ValueError := by
  have : calculateOverlap (.init p s i) (.int 0) (.int 3) = .error .IndexError := by rw [C81_overlap]; simp
  exact ⟨this, by rw [this]; simp⟩

/-! ## Containers -/

/-- What a user sees of container `c`: its size, its three fields and its three derivative rows. -/
def shows (w : World) (c : ℕ) : Option (ℕ × Rows × Rows) := do
  let x ← w.objs[c]?
  let f ← w.heap[x.fields]?
  let d ← w.heap[x.derivs]?
  some (x.npts, f, d)

theorem shows_some {w : World} {o n : ℕ} {f d : Rows} : shows w o = some (n, f, d) ↔
    ∃ x, w.objs[o]? = some x ∧ x.npts = n ∧ w.heap[x.fields]? = some f ∧ w.heap[x.derivs]? = some d := by
  simp only [shows, Option.bind_eq_bind, Option.bind_eq_some_iff, Option.some.injEq, Prod.mk.injEq]
  constructor
  · rintro ⟨x, hx, f', hf, d', hd, h1, rfl, rfl⟩
    exact ⟨x, hx, h1, hf, hd⟩
  · rintro ⟨x, hx, h1, hf, hd⟩
    exact ⟨x, hx, f, hf, d, hd, h1, rfl, rfl⟩

/-- What may happen: a method call on a container, or a write to an array by a caller who holds it. -/
inductive Op where
  | new (n : ℕ)
  | createFields (o : ℕ)
  | setRow (o : ℕ) (r : Fin 3) (v : Vec ℂ)
  | setAll (o : ℕ) (m : Rows)
  | copy (o : ℕ)
  | write (a : ℕ) (r : Fin 3) (i : ℕ) (z : ℂ)
  | setK0 (o : ℕ) (r : Fin 3) (x : ℝ)

/-- The world after the call, whether it returned or raised. -/
def step : Op → World → World
  | .new n, w => (new n w).2
  | .createFields o, w => (createFields o w).2
  | .setRow o r v, w => (setRow o r v w).2
  | .setAll o m, w => (setAll o m w).2
  | .copy o, w => (createCopy o w).2
  | .write a r i z, w => (write a r i z w).2
  | .setK0 o r x, w => (setK0 o r x w).2

def run (l : List Op) (w : World) : World := l.foldl (fun w o => step o w) w

def start : World := ⟨[], [], fun _ => 0⟩

/-- No two containers share an array, and `fields`, `derivs` differ. -/
structure Inv (w : World) : Prop where
  lt : ∀ (o : ℕ) (x : Obj), w.objs[o]? = some x → x.fields < w.heap.length ∧ x.derivs < w.heap.length
  ne : ∀ (o o' : ℕ) (x x' : Obj), w.objs[o]? = some x → w.objs[o']? = some x' → x.fields ≠ x'.derivs ∧
    (o ≠ o' → x.fields ≠ x'.fields ∧ x.derivs ≠ x'.derivs)
  size : ∀ (o : ℕ) (x : Obj), w.objs[o]? = some x → ∀ f, w.heap[x.fields]? = some f → f.n = x.npts

/-- The calls that act on container `c` or on the arrays it had in `w`. -/
def Touches (w : World) (c : ℕ) : Op → Prop
  | .new _ => False
  | .createFields o => o = c
  | .setRow o _ _ => o = c
  | .setAll o _ => o = c
  | .copy _ => False
  | .write a _ _ _ => ∃ x, w.objs[c]? = some x ∧ (a = x.fields ∨ a = x.derivs)
  | .setK0 _ _ _ => False

/-! ### Explicit effects -/

theorem new_eq (n : ℕ) (w : World) : new n w = (.ok w.objs.length,
    { w with heap := w.heap ++ [Rows.zero n] ++ [Rows.zero n],
             objs := w.objs ++ [⟨n, w.heap.length, w.heap.length + 1⟩] }) := by
  show ((Except.ok w.objs.length : Except PyErr ℕ), (⟨w.heap ++ [Rows.zero n] ++ [Rows.zero n],
    w.objs ++ [⟨n, w.heap.length, (w.heap ++ [Rows.zero n]).length⟩], w.k0s⟩ : World)) = _
  simp

theorem createFields_eq {o : ℕ} {x : Obj} {w : World} (h : w.objs[o]? = some x) : createFields o w = (.ok (),
    { w with heap := w.heap ++ [Rows.zero x.npts] ++ [Rows.zero x.npts],
             objs := w.objs.set o ⟨x.npts, w.heap.length, w.heap.length + 1⟩ }) := by
  simp only [createFields, alloc, bind_apply, obj, h]
  simp

theorem createFields_none {o : ℕ} {w : World} (h : w.objs[o]? = none) : createFields o w = (.error .NameError, w) := by
  simp [createFields, bind_apply, obj, h]

/-- A call that may only replace the array `fields` of container `o` by one of the same width. -/
theorem upd_cases {o : ℕ} {g : Rows → Except PyErr Rows} (hg : ∀ a b, g a = .ok b → b.n = a.n) (w : World) :
    let m : PyM World Unit := do
      let x ← obj o
      let a ← array x.fields
      let b ← PyM.lift (g a)
      store x.fields b
    (m w).2 = w ∨ ∃ x a b, w.objs[o]? = some x ∧ w.heap[x.fields]? = some a ∧ b.n = a.n ∧
      m w = (.ok (), { w with heap := w.heap.set x.fields b }) := by
  intro m
  simp only [m, bind_apply, obj]
  rcases hx : w.objs[o]? with _ | x
  · left; rfl
  · simp only [array]
    rcases ha : w.heap[x.fields]? with _ | a
    · left; rfl
    · simp only [lift_apply]
      rcases hb : g a with e | b
      · left; rfl
      · right
        exact ⟨x, a, b, rfl, ha, hg a b hb, rfl⟩

theorem setRow_n {a b : Rows} {r : Fin 3} {v : Vec ℂ} (h : a.setRow r v = .ok b) : b.n = a.n := by
  unfold Rows.setRow at h
  split at h
  · simp at h
  · rw [← Except.ok.inj h]

/-- What a view from `get_pump`, `get_sgnl` or `get_idlr` shows. -/
def viewed (w : World) (v : ℕ × Fin 3) : Option (Vec ℂ) := (w.heap[v.1]?).map fun a => ⟨a.n, a.val v.2⟩

/-- C81: after a setter that returned, the getter of the same field shows the samples given, and the getters of the other
two show what they showed before. -/
theorem C81_read_back {w : World} {o : ℕ} {x : Obj} {a : Rows} (hx : w.objs[o]? = some x) (ha : w.heap[x.fields]? = some a)
    (r : Fin 3) {v : Vec ℂ} (hv : v.len = a.n) :
    ∃ w', setRow o r v w = (.ok (), w') ∧ ∀ s, ∃ u, getRow o s w' = (.ok u, w') ∧
      viewed w' u = if s = r then some v else viewed w (x.fields, s) := by
  obtain ⟨l, f⟩ := v
  have hl : l = a.n := hv
  subst hl
  have hlt : x.fields < w.heap.length := by
    rcases Nat.lt_or_ge x.fields w.heap.length with h | h
    · exact h
    · rw [List.getElem?_eq_none h] at ha
      cases ha
  have hs : a.setRow r ⟨a.n, f⟩ = .ok ⟨a.n, fun s => if s = r then f else a.val s⟩ := by
    unfold Rows.setRow
    simp [Vec.assign]
  refine ⟨{ w with heap := w.heap.set x.fields ⟨a.n, fun s => if s = r then f else a.val s⟩ }, ?_, fun s => ?_⟩
  · simp only [setRow, bind_apply, obj, hx, array, ha, lift_apply, hs]
    rfl
  · refine ⟨(x.fields, s), ?_, ?_⟩
    · simp only [getRow, bind_apply, obj, hx]
      rfl
    · simp only [viewed, List.getElem?_set_self hlt, ha, Option.map_some]
      split_ifs <;> rfl

theorem setAll_n {a b m : Rows} (h : a.setAll m = .ok b) : b.n = a.n := by
  unfold Rows.setAll at h
  split at h
  · rw [← Except.ok.inj h]
  · split at h
    · rw [← Except.ok.inj h]
    · simp at h

theorem Inv.set {w : World} (h : Inv w) (a : ℕ) {b m : Rows} (ha : w.heap[a]? = some m) (hb : b.n = m.n) :
    Inv { w with heap := w.heap.set a b } where
  lt := fun o x hx => by simpa using h.lt o x hx
  ne := h.ne
  size := fun o x hx f hf => by
    rw [List.getElem?_set] at hf
    split at hf
    · rename_i he
      split at hf
      · rw [← Option.some.inj hf, hb]
        exact h.size o x hx m (he ▸ ha)
      · simp at hf
    · exact h.size o x hx f hf

theorem Inv.new {w : World} (h : Inv w) (n : ℕ) : Inv (new n w).2 := by
  rw [new_eq]
  have hl : (w.heap ++ [Rows.zero n] ++ [Rows.zero n]).length = w.heap.length + 2 := by simp
  have key : ∀ (o : ℕ) (x : Obj), (w.objs ++ [⟨n, w.heap.length, w.heap.length + 1⟩])[o]? = some x →
      w.objs[o]? = some x ∨ o = w.objs.length ∧ x = ⟨n, w.heap.length, w.heap.length + 1⟩ := by
    intro o x hx
    rcases lt_trichotomy o w.objs.length with h1 | h1 | h1
    · left
      rwa [List.getElem?_append_left h1] at hx
    · right
      subst h1
      simp at hx
      exact ⟨rfl, hx.symm⟩
    · rw [List.getElem?_append_right (by omega)] at hx
      rw [List.getElem?_eq_none (by simp; omega)] at hx
      simp at hx
  refine ⟨fun o x hx => ?_, fun o o' x x' hx hx' => ?_, fun o x hx f hf => ?_⟩
  · show x.fields < (w.heap ++ [Rows.zero n] ++ [Rows.zero n]).length ∧ x.derivs < (w.heap ++ [Rows.zero n] ++ [Rows.zero n]).length
    rw [hl]
    rcases key o x hx with h1 | ⟨-, rfl⟩
    · have := h.lt o x h1
      omega
    · simp only
      omega
  · rcases key o x hx with h1 | ⟨e1, rfl⟩ <;> rcases key o' x' hx' with h2 | ⟨e2, rfl⟩
    · exact h.ne o o' x x' h1 h2
    · have := h.lt o x h1
      simp only
      omega
    · have := h.lt o' x' h2
      simp only
      omega
    · simp only
      omega
  · replace hf : (w.heap ++ [Rows.zero n] ++ [Rows.zero n])[x.fields]? = some f := hf
    rcases key o x hx with h1 | ⟨-, rfl⟩
    · have := h.lt o x h1
      rw [List.append_assoc, List.getElem?_append_left this.1] at hf
      exact h.size o x h1 f hf
    · simp at hf
      rw [← hf]
      rfl

theorem Inv.createFields {w : World} (h : Inv w) (o : ℕ) : Inv (createFields o w).2 := by
  rcases hx : w.objs[o]? with _ | x0
  · rw [createFields_none hx]
    exact h
  · rw [createFields_eq hx]
    have hl : (w.heap ++ [Rows.zero x0.npts] ++ [Rows.zero x0.npts]).length = w.heap.length + 2 := by simp
    have key : ∀ (p : ℕ) (x : Obj), (w.objs.set o ⟨x0.npts, w.heap.length, w.heap.length + 1⟩)[p]? = some x →
        p ≠ o ∧ w.objs[p]? = some x ∨ p = o ∧ x = ⟨x0.npts, w.heap.length, w.heap.length + 1⟩ := by
      intro p x hp
      rw [List.getElem?_set] at hp
      split at hp
      · rename_i he
        split at hp
        · exact Or.inr ⟨he.symm, (Option.some.inj hp).symm⟩
        · simp at hp
      · rename_i he
        exact Or.inl ⟨fun hc => he hc.symm, hp⟩
    refine ⟨fun p x hx => ?_, fun p p' x x' hx hx' => ?_, fun p x hx f hf => ?_⟩
    · show x.fields < (w.heap ++ [Rows.zero x0.npts] ++ [Rows.zero x0.npts]).length ∧
        x.derivs < (w.heap ++ [Rows.zero x0.npts] ++ [Rows.zero x0.npts]).length
      rw [hl]
      rcases key p x hx with ⟨-, h1⟩ | ⟨-, rfl⟩
      · have := h.lt p x h1
        omega
      · simp only
        omega
    · rcases key p x hx with ⟨n1, h1⟩ | ⟨e1, rfl⟩ <;> rcases key p' x' hx' with ⟨n2, h2⟩ | ⟨e2, rfl⟩
      · exact h.ne p p' x x' h1 h2
      · have := h.lt p x h1
        simp only
        omega
      · have := h.lt p' x' h2
        simp only
        omega
      · simp only
        omega
    · replace hf : (w.heap ++ [Rows.zero x0.npts] ++ [Rows.zero x0.npts])[x.fields]? = some f := hf
      rcases key p x hx with ⟨-, h1⟩ | ⟨-, rfl⟩
      · have := h.lt p x h1
        rw [List.append_assoc, List.getElem?_append_left this.1] at hf
        exact h.size p x h1 f hf
      · simp at hf
        rw [← hf]
        rfl

theorem write_cases (a : ℕ) (r : Fin 3) (i : ℕ) (z : ℂ) (w : World) : (write a r i z w).2 = w ∨
    ∃ m b, w.heap[a]? = some m ∧ b.n = m.n ∧ (write a r i z w).2 = { w with heap := w.heap.set a b } := by
  simp only [write, bind_apply, array]
  rcases h : w.heap[a]? with _ | m
  · left; rfl
  · simp only
    split
    · right
      exact ⟨m, ⟨m.n, fun s j => if s = r ∧ j.1 = i then z else m.val s j⟩, rfl, rfl, rfl⟩
    · left; rfl

/-- `create_copy` of an existing container: it succeeds, and is a new container followed by `set_all`. -/
theorem createCopy_eq {w : World} (h : Inv w) {o : ℕ} {x : Obj} {f : Rows} (hx : w.objs[o]? = some x) (hf : w.heap[x.fields]? = some f) :
    createCopy o w = (.ok w.objs.length,
      { w with heap := w.heap ++ [f] ++ [Rows.zero x.npts],
               objs := w.objs ++ [⟨x.npts, w.heap.length, w.heap.length + 1⟩] }) := by
  have ho : o < w.objs.length := (List.getElem?_eq_some_iff.mp hx).1
  have hl := h.lt o x hx
  have hn := h.size o x hx f hf
  have e1 : (w.objs ++ [⟨x.npts, w.heap.length, w.heap.length + 1⟩])[o]? = some x := by
    rw [List.getElem?_append_left ho, hx]
  have e2 : (w.heap ++ ([Rows.zero x.npts] ++ [Rows.zero x.npts]))[x.fields]? = some f := by
    rw [List.getElem?_append_left hl.1, hf]
  have e3 : (Rows.zero x.npts).setAll f = .ok f := by
    unfold Rows.setAll
    rw [dif_pos (show f.n = (Rows.zero x.npts).n from hn)]
    clear e1 e2 hf
    generalize x.npts = m at hn
    subst hn
    rfl
  simp only [createCopy, bind_apply, obj, hx, new_eq, getAll, e1, pure_apply, array, setAll, List.append_assoc, e2]
  simp [e3, store, bind_apply]

theorem createCopy_none {w : World} {o : ℕ} (hx : w.objs[o]? = none) : createCopy o w = (.error .NameError, w) := by
  simp [createCopy, bind_apply, obj, hx]

theorem Inv.step {w : World} (h : Inv w) (op : Op) : Inv (step op w) := by
  cases op with
  | new n => exact h.new n
  | createFields o => exact h.createFields o
  | setRow o r v =>
    rcases upd_cases (o := o) (g := fun a => a.setRow r v) (fun a b => setRow_n) w with e | ⟨x, a, b, -, ha, hn, e⟩
    · show Inv (setRow o r v w).2
      unfold setRow
      rw [e]
      exact h
    · show Inv (setRow o r v w).2
      unfold setRow
      rw [e]
      exact h.set _ ha hn
  | setAll o m =>
    rcases upd_cases (o := o) (g := fun a => a.setAll m) (fun a b => setAll_n) w with e | ⟨x, a, b, -, ha, hn, e⟩
    · show Inv (setAll o m w).2
      unfold setAll
      rw [e]
      exact h
    · show Inv (setAll o m w).2
      unfold setAll
      rw [e]
      exact h.set _ ha hn
  | copy o =>
    show Inv (createCopy o w).2
    rcases hx : w.objs[o]? with _ | x
    · rw [createCopy_none hx]
      exact h
    · obtain ⟨f, hf⟩ : ∃ f, w.heap[x.fields]? = some f := ⟨_, List.getElem?_eq_getElem (h.lt o x hx).1⟩
      rw [createCopy_eq h hx hf]
      have h2 := h.new x.npts
      rw [new_eq] at h2
      have h3 := h2.set w.heap.length (b := f) (m := Rows.zero x.npts) (by simp) (h.size o x hx f hf)
      simpa using h3
  | write a r i z =>
    rcases write_cases a r i z w with e | ⟨m, b, ha, hn, e⟩
    · show Inv (write a r i z w).2
      rw [e]
      exact h
    · show Inv (write a r i z w).2
      rw [e]
      exact h.set _ ha hn
  | setK0 o r x =>
    show Inv (setK0 o r x w).2
    simp only [setK0, bind_apply, obj]
    rcases w.objs[o]? with _ | y
    · exact h
    · exact ⟨h.lt, h.ne, h.size⟩

theorem inv_start : Inv start := ⟨by simp [start], by simp [start], by simp [start]⟩

/-- Every sequence of calls keeps the arrays of containers apart. -/
theorem inv_run (l : List Op) {w : World} (h : Inv w) : Inv (run l w) := by
  induction l generalizing w with
  | nil => exact h
  | cons o l ih => exact ih (h.step o)

/-! ### Framing -/

theorem shows_set {w : World} {c a : ℕ} {x : Obj} (hx : w.objs[c]? = some x) (h1 : a ≠ x.fields) (h2 : a ≠ x.derivs) (b : Rows) :
    shows { w with heap := w.heap.set a b } c = shows w c := by
  simp only [shows, hx, Option.bind_eq_bind, Option.bind_some, List.getElem?_set_ne h1, List.getElem?_set_ne h2]

theorem shows_append {w : World} (h : Inv w) {c : ℕ} {x : Obj} (hx : w.objs[c]? = some x) (l : List Rows) (l' : List Obj) :
    shows { w with heap := w.heap ++ l, objs := w.objs ++ l' } c = shows w c := by
  have hc : c < w.objs.length := (List.getElem?_eq_some_iff.mp hx).1
  obtain ⟨h1, h2⟩ := h.lt c x hx
  simp only [shows, List.getElem?_append_left hc, hx, Option.bind_eq_bind, Option.bind_some,
    List.getElem?_append_left h1, List.getElem?_append_left h2]

/-- A call that does not act on container `c` leaves it as it is, and leaves its arrays where they are. -/
theorem frame {w : World} (h : Inv w) {c : ℕ} {x : Obj} (hx : w.objs[c]? = some x) {op : Op} (ht : ¬ Touches w c op) :
    shows (step op w) c = shows w c ∧ (step op w).objs[c]? = some x := by
  have hc : c < w.objs.length := (List.getElem?_eq_some_iff.mp hx).1
  have upd : ∀ {o : ℕ} {g : Rows → Except PyErr Rows} (hg : ∀ a b, g a = .ok b → b.n = a.n), o ≠ c →
      let m : PyM World Unit := do
        let x ← obj o
        let a ← array x.fields
        let b ← PyM.lift (g a)
        store x.fields b
      shows (m w).2 c = shows w c ∧ (m w).2.objs[c]? = some x := by
    intro o g hg hoc m
    rcases upd_cases (o := o) hg w with e | ⟨y, a, b, hy, ha, hn, e⟩
    · simp only [m]
      rw [e]
      exact ⟨rfl, hx⟩
    · simp only [m]
      rw [e]
      have hne := h.ne o c y x hy hx
      exact ⟨shows_set hx (hne.2 hoc).1 hne.1 b, hx⟩
  cases op with
  | new n =>
    show shows (new n w).2 c = _ ∧ (new n w).2.objs[c]? = _
    rw [new_eq, List.append_assoc]
    exact ⟨shows_append h hx _ _, by show (w.objs ++ _)[c]? = _; rw [List.getElem?_append_left hc, hx]⟩
  | createFields o =>
    have hoc : o ≠ c := ht
    show shows (createFields o w).2 c = _ ∧ (createFields o w).2.objs[c]? = _
    rcases hy : w.objs[o]? with _ | y
    · rw [createFields_none hy]
      exact ⟨rfl, hx⟩
    · rw [createFields_eq hy, List.append_assoc]
      have e : (w.objs.set o ⟨y.npts, w.heap.length, w.heap.length + 1⟩)[c]? = some x := by
        rw [List.getElem?_set_ne hoc, hx]
      obtain ⟨h1, h2⟩ := h.lt c x hx
      refine ⟨?_, e⟩
      simp only [shows, e, hx, Option.bind_eq_bind, Option.bind_some, List.getElem?_append_left h1, List.getElem?_append_left h2]
  | setRow o r v => exact upd (g := fun a => a.setRow r v) (fun a b => setRow_n) ht
  | setAll o m => exact upd (g := fun a => a.setAll m) (fun a b => setAll_n) ht
  | copy o =>
    show shows (createCopy o w).2 c = _ ∧ (createCopy o w).2.objs[c]? = _
    rcases hy : w.objs[o]? with _ | y
    · rw [createCopy_none hy]
      exact ⟨rfl, hx⟩
    · obtain ⟨f, hf⟩ : ∃ f, w.heap[y.fields]? = some f := ⟨_, List.getElem?_eq_getElem (h.lt o y hy).1⟩
      rw [createCopy_eq h hy hf, List.append_assoc]
      exact ⟨shows_append h hx _ _, by show (w.objs ++ _)[c]? = _; rw [List.getElem?_append_left hc, hx]⟩
  | write a r i z =>
    show shows (write a r i z w).2 c = _ ∧ (write a r i z w).2.objs[c]? = _
    rcases write_cases a r i z w with e | ⟨m, b, ha, hn, e⟩
    · rw [e]
      exact ⟨rfl, hx⟩
    · rw [e]
      have h1 : a ≠ x.fields := fun hc' => ht ⟨x, hx, Or.inl hc'⟩
      have h2 : a ≠ x.derivs := fun hc' => ht ⟨x, hx, Or.inr hc'⟩
      exact ⟨shows_set hx h1 h2 b, hx⟩
  | setK0 o r y =>
    show shows (setK0 o r y w).2 c = _ ∧ (setK0 o r y w).2.objs[c]? = _
    simp only [setK0, bind_apply, obj]
    rcases w.objs[o]? with _ | y
    · exact ⟨rfl, hx⟩
    · exact ⟨rfl, hx⟩

/-- C81: however containers were created and used, a sequence of calls that does not act on container `c` or on arrays that
it handed out leaves everything that `c` shows unchanged. -/
theorem C81_containers_independent {w : World} (h : Inv w) {c : ℕ} {x : Obj} (hx : w.objs[c]? = some x) {l : List Op}
    (hl : ∀ op ∈ l, ¬ Touches w c op) : shows (run l w) c = shows w c := by
  induction l generalizing w with
  | nil => rfl
  | cons op l ih =>
    obtain ⟨h1, h2⟩ := frame h hx (hl op (by simp))
    have ht : ∀ o ∈ l, ¬ Touches (step op w) c o := by
      intro o ho hc
      apply hl o (by simp [ho])
      cases o with
      | write a r i z =>
        obtain ⟨y, hy, hh⟩ := hc
        rw [h2] at hy
        obtain rfl := Option.some.inj hy
        exact ⟨x, hx, hh⟩
      | new n => exact hc
      | createFields o => exact hc
      | setRow o r v => exact hc
      | setAll o m => exact hc
      | copy o => exact hc
      | setK0 o r x => exact hc
    rw [show run (op :: l) w = run l (step op w) from rfl, ih (h.step op) h2 ht, h1]

/-- C81: after any history, `create_copy` returns a container with the same size and fields and with zero derivatives.  Calls
that do not act on the copy leave it unchanged (so it survives any change of the original), and calls that do not act on the
original leave that unchanged (so it survives any change of the copy). -/
theorem C81_copy (l0 : List Op) {o n : ℕ} {f d : Rows} (ho : shows (run l0 start) o = some (n, f, d)) :
    ∃ c w, createCopy o (run l0 start) = (.ok c, w) ∧ c ≠ o ∧ shows w c = some (n, f, Rows.zero n) ∧
      shows w o = some (n, f, d) ∧
      (∀ l, (∀ op ∈ l, ¬ Touches w c op) → shows (run l w) c = some (n, f, Rows.zero n)) ∧
      (∀ l, (∀ op ∈ l, ¬ Touches w o op) → shows (run l w) o = some (n, f, d)) ∧
      ∀ a, (getAll o w).1 = .ok a → ∀ r i z, ¬ Touches w c (.write a r i z) := by
  have hi := inv_run l0 inv_start
  generalize run l0 start = w0 at ho hi
  obtain ⟨x, hx, hs1, hs2, -⟩ := shows_some.mp ho
  obtain ⟨hl1, hl2⟩ := hi.lt o x hx
  have hc := createCopy_eq hi hx hs2
  have hlt : o < w0.objs.length := (List.getElem?_eq_some_iff.mp hx).1
  have hst : (createCopy o w0).2 = step (.copy o) w0 := rfl
  have hi2 : Inv (createCopy o w0).2 := by rw [hst]; exact hi.step _
  have hfr := frame hi hx (op := .copy o) (fun h => h)
  rw [← hst] at hfr
  rw [hc] at hi2 hfr
  have hobj : (w0.objs ++ [⟨x.npts, w0.heap.length, w0.heap.length + 1⟩])[w0.objs.length]? =
      some ⟨x.npts, w0.heap.length, w0.heap.length + 1⟩ := by simp
  refine ⟨_, _, hc, by omega, ?_, hfr.1.trans ho, fun l hl => ?_, fun l hl => ?_, fun a ha r i z => ?_⟩
  · simp [shows, hs1]
  · rw [C81_containers_independent hi2 hobj hl]
    simp [shows, hs1]
  · rw [C81_containers_independent hi2 hfr.2 hl, hfr.1, ho]
  · rintro ⟨y, hy, hay⟩
    rw [hobj] at hy
    obtain rfl := Option.some.inj hy
    simp only [getAll, bind_apply, obj, hfr.2] at ha
    obtain rfl := Except.ok.inj ha
    simp only at hay
    omega

/-- C81: a setter stores the field in its own row and changes no other row and no derivative; a field of another length (and
not 1) raises `ValueError` and changes nothing. -/
theorem C81_set_row {w : World} (h : Inv w) {o n : ℕ} {f d : Rows} (ho : shows w o = some (n, f, d)) (r : Fin 3) (v : Vec ℂ) :
    (v.len ≠ n → v.len ≠ 1 → setRow o r v w = (.error .ValueError, w)) ∧
    (∀ hv : v.len = n, ∃ w', setRow o r v w = (.ok (), w') ∧ ∃ f', shows w' o = some (n, f', d) ∧
      ∃ hn : f'.n = n, ∃ hn' : f.n = n, (∀ i : Fin n, f'.val r (i.cast hn.symm) = v.val (i.cast hv.symm)) ∧
        ∀ s ≠ r, ∀ i : Fin n, f'.val s (i.cast hn.symm) = f.val s (i.cast hn'.symm)) := by
  obtain ⟨x, hx, hs1, hs2, hs3⟩ := shows_some.mp ho
  obtain ⟨hl1, hl2⟩ := h.lt o x hx
  have hfn : f.n = n := (h.size o x hx f hs2).trans hs1
  have hne := (h.ne o o x x hx hx).1
  obtain ⟨m, fv⟩ := f
  dsimp only at hfn
  subst hfn
  refine ⟨fun h1 h2 => ?_, fun hv => ?_⟩
  · simp [setRow, bind_apply, obj, hx, array, hs2, Rows.setRow, Vec.assign, h1, h2]
  · obtain ⟨vn, vv⟩ := v
    dsimp only at hv
    subst hv
    refine ⟨{ w with heap := w.heap.set x.fields ⟨vn, fun s => if s = r then vv else fv s⟩ }, ?_,
      ⟨vn, fun s => if s = r then vv else fv s⟩, ?_, rfl, rfl, fun i => ?_, fun s hs i => ?_⟩
    · simp [setRow, bind_apply, obj, hx, array, hs2, Rows.setRow, Vec.assign, store]
    · simp only [shows, hx, Option.bind_eq_bind, Option.bind_some, List.getElem?_set_self hl1, List.getElem?_set_ne hne, hs3, hs1]
    · simp
    · simp [hs]

/-- C81: a setter given a single number stores it in every sample of its own row, and `set_all` given one column stores it in every sample of each row; nothing else
changes. -/
theorem C81_constant {w : World} (h : Inv w) {o n : ℕ} {f d : Rows} (ho : shows w o = some (n, f, d)) (r : Fin 3) (x : ℂ) (m : Fin 3 → ℂ) :
    (∃ w', setRow o r ⟨1, fun _ => x⟩ w = (.ok (), w') ∧ ∃ f', shows w' o = some (n, f', d) ∧ ∃ hn : f'.n = n, ∃ hn' : f.n = n,
      (∀ i : Fin n, f'.val r (i.cast hn.symm) = x) ∧ ∀ s ≠ r, ∀ i : Fin n, f'.val s (i.cast hn.symm) = f.val s (i.cast hn'.symm)) ∧
    ∃ w', setAll o ⟨1, fun s _ => m s⟩ w = (.ok (), w') ∧ ∃ f', shows w' o = some (n, f', d) ∧ ∃ hn : f'.n = n, ∀ s, ∀ i : Fin n, f'.val s (i.cast hn.symm) = m s := by
  obtain ⟨y, hx, hs1, hs2, hs3⟩ := shows_some.mp ho
  obtain ⟨hl1, hl2⟩ := h.lt o y hx
  have hfn : f.n = n := (h.size o y hx f hs2).trans hs1
  have hne := (h.ne o o y y hx hx).1
  obtain ⟨k, fv⟩ := f
  dsimp only at hfn
  subst hfn
  have e1 : Rows.setRow ⟨k, fv⟩ r ⟨1, fun _ => x⟩ = .ok ⟨k, fun s => if s = r then fun _ => x else fv s⟩ := by
    unfold Rows.setRow Vec.assign
    by_cases hk : 1 = k
    · subst hk
      simp
    · simp [hk]
  have e2 : Rows.setAll ⟨k, fv⟩ ⟨1, fun s _ => m s⟩ = .ok ⟨k, fun s _ => m s⟩ := by
    unfold Rows.setAll
    by_cases hk : 1 = k
    · subst hk
      simp
    · simp [hk]
  refine ⟨⟨{ w with heap := w.heap.set y.fields ⟨k, fun s => if s = r then fun _ => x else fv s⟩ }, ?_,
      ⟨k, fun s => if s = r then fun _ => x else fv s⟩, ?_, rfl, rfl, fun i => ?_, fun s hs i => ?_⟩,
    { w with heap := w.heap.set y.fields ⟨k, fun s _ => m s⟩ }, ?_, ⟨k, fun s _ => m s⟩, ?_, rfl, fun s i => rfl⟩
  · simp [setRow, bind_apply, obj, hx, array, hs2, e1, store]
  · simp only [shows, hx, Option.bind_eq_bind, Option.bind_some, List.getElem?_set_self hl1, List.getElem?_set_ne hne, hs3, hs1]
  · simp
  · simp [hs]
  · simp [setAll, bind_apply, obj, hx, array, hs2, e2, store]
  · simp only [shows, hx, Option.bind_eq_bind, Option.bind_some, List.getElem?_set_self hl1, List.getElem?_set_ne hne, hs3, hs1]

/-- C81: `set_all` with rows of the right length stores them and changes no derivative; any other length (and not 1) raises `ValueError` and changes nothing. -/
theorem C81_set_all {w : World} (h : Inv w) {o n : ℕ} {f d : Rows} (ho : shows w o = some (n, f, d)) (m : Rows) :
    (m.n ≠ n → m.n ≠ 1 → setAll o m w = (.error .ValueError, w)) ∧
    (m.n = n → ∃ w', setAll o m w = (.ok (), w') ∧ shows w' o = some (n, m, d)) := by
  obtain ⟨y, hx, hs1, hs2, hs3⟩ := shows_some.mp ho
  obtain ⟨hl1, hl2⟩ := h.lt o y hx
  have hfn : f.n = n := (h.size o y hx f hs2).trans hs1
  have hne := (h.ne o o y y hx hx).1
  refine ⟨fun h1 h2 => ?_, fun hm => ⟨{ w with heap := w.heap.set y.fields m }, ?_, ?_⟩⟩
  · simp [setAll, bind_apply, obj, hx, array, hs2, Rows.setAll, hfn, h1, h2]
  · have e : f.setAll m = .ok m := by
      obtain ⟨k, fv⟩ := f
      obtain ⟨k', mv⟩ := m
      dsimp only at hfn hm
      subst hfn
      subst hm
      simp [Rows.setAll]
    simp [setAll, bind_apply, obj, hx, array, hs2, e, store]
  · simp only [shows, hx, Option.bind_eq_bind, Option.bind_some, List.getElem?_set_self hl1, List.getElem?_set_ne hne, hs3, hs1]

theorem C81_nonvacuous : ∃ (l0 : List Op) (f d : Rows), shows (run l0 start) 0 = some (2, f, d) ∧ f.val 1 = f.val 2 ∧
    ∃ i, f.val 0 i ≠ f.val 1 i := by
  refine ⟨[.new 2, .setRow 0 0 ⟨2, fun _ => 1⟩], ?_⟩
  have h1 : shows (run [.new 2] start) 0 = some (2, Rows.zero 2, Rows.zero 2) := by
    simp [run, step, new_eq, start, shows]
  obtain ⟨w', e, f', hs, hn, hn', h3, h4⟩ := (C81_set_row (inv_run [.new 2] inv_start) h1 0 ⟨2, fun _ => 1⟩).2 rfl
  refine ⟨f', Rows.zero 2, ?_, ?_, ?_⟩
  · show shows (setRow 0 0 ⟨2, fun _ => 1⟩ (run [.new 2] start)).2 0 = _
    rw [e, hs]
  · funext i
    have a := h4 1 (by decide) (i.cast hn)
    have b := h4 2 (by decide) (i.cast hn)
    simp only [Fin.cast_cast, Fin.cast_eq_self] at a b
    rw [a, b]
    rfl
  · refine ⟨(0 : Fin 2).cast hn.symm, ?_⟩
    rw [h3 0, h4 1 (by decide) 0]
    exact one_ne_zero

/-! ## C105 -/

/-- C105, in general: all containers show the list that was changed last. -/
theorem C105_shared {w : World} {o : ℕ} (ho : o < w.objs.length) {p : ℕ} (hp : p < w.objs.length) (r : Fin 3) (x : ℝ) :
    ∃ w' k, setK0 o r x w = (.ok (), w') ∧ (getK0 p w').1 = .ok k ∧ k r = x ∧ ∀ s ≠ r, k s = w.k0s s := by
  refine ⟨{ w with k0s := fun s => if s = r then x else w.k0s s }, fun s => if s = r then x else w.k0s s, ?_, ?_, by simp, ?_⟩
  · simp [setK0, bind_apply, obj, ho]
  · simp only [getK0, bind_apply, obj, List.getElem?_eq_getElem hp, get_apply, pure_apply]
  · intro s hs
    simp [hs]

/-- C105 is refuted: assigning an entry of `k0s` of one container changes that of another, even of its copy. -/
theorem C105_refuted : ∃ w c w1 w2, createCopy 0 w = (.ok c, w1) ∧ setK0 c 0 1 w1 = (.ok (), w2) ∧ c ≠ 0 ∧
    ∃ a b, (getK0 0 w1).1 = .ok a ∧ (getK0 0 w2).1 = .ok b ∧ a 0 ≠ b 0 := by
  have hi := inv_run [.new 1] inv_start
  have hx : (run [.new 1] start).objs[0]? = some ⟨1, 0, 1⟩ := by simp [run, step, new_eq, start]
  have hf : (run [.new 1] start).heap[(⟨1, 0, 1⟩ : Obj).fields]? = some (Rows.zero 1) := by simp [run, step, new_eq, start]
  obtain ⟨w2, b, e2, e3, e4, -⟩ := C105_shared (w := (createCopy 0 (run [.new 1] start)).2) (o := 1) (p := 0)
    (by rw [createCopy_eq hi hx hf]; simp [run, step, new_eq, start]) (by rw [createCopy_eq hi hx hf]; simp [run, step, new_eq, start]) 0 1
  refine ⟨run [.new 1] start, 1, _, w2, ?_, e2, by norm_num, fun _ => 0, b, ?_, e3, by rw [e4]; norm_num⟩
  · refine Prod.ext ?_ rfl
    rw [createCopy_eq hi hx hf]
    simp [run, step, new_eq, start]
  · rw [createCopy_eq hi hx hf]
    simp only [getK0, bind_apply, obj, run, step, List.foldl_cons, List.foldl_nil, new_eq, start]
    rfl

end PyNLO.FieldClasses
