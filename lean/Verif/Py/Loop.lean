import Mathlib.Data.Nat.Basic
import Mathlib.Tactic.Set
import Mathlib.Tactic.Push

/-!
# Python `while` loops that may fail to terminate

A loop body maps a loop state either to the next loop state (`inl`) or to the result with which the loop is
left (`inr`: by `break`, by `return`, by a raised exception, or because the condition is false).
-/

namespace PyNLO

variable {σ ρ : Type _}

/-- At most `k` iterations of the loop. -/
def loopAt (body : σ → σ ⊕ ρ) : ℕ → σ → σ ⊕ ρ
  | 0, s => .inl s
  | k + 1, s =>
    match body s with
    | .inl s' => loopAt body k s'
    | .inr r => .inr r

open Classical in
/-- The result with which the loop is left; `none` if it runs forever. -/
noncomputable def runLoop (body : σ → σ ⊕ ρ) (s : σ) : Option ρ :=
  if h : ∃ r, ∃ k, loopAt body k s = .inr r then some h.choose else none

theorem loopAt_add (body : σ → σ ⊕ ρ) {k : ℕ} {s : σ} {r : ρ} (h : loopAt body k s = .inr r) (m : ℕ) :
    loopAt body (k + m) s = .inr r := by
  induction k generalizing s with
  | zero => simp [loopAt] at h
  | succ k ih =>
    rw [show k + 1 + m = (k + m) + 1 by omega]
    unfold loopAt at h ⊢
    cases hb : body s with
    | inl s' => rw [hb] at h; exact ih h
    | inr r' => rw [hb] at h; exact h

theorem loopAt_comp (body : σ → σ ⊕ ρ) {k : ℕ} {s s' : σ} (h : loopAt body k s = .inl s') (m : ℕ) :
    loopAt body (k + m) s = loopAt body m s' := by
  induction k generalizing s with
  | zero => simp only [loopAt, Sum.inl.injEq] at h; subst h; simp
  | succ k ih =>
    rw [show k + 1 + m = (k + m) + 1 by omega]
    simp only [loopAt] at h ⊢
    cases hb : body s with
    | inl t => rw [hb] at h; exact ih h
    | inr r => rw [hb] at h; simp at h

theorem runLoop_of_loopAt {body : σ → σ ⊕ ρ} {k : ℕ} {s : σ} {r : ρ} (h : loopAt body k s = .inr r) :
    runLoop body s = some r := by
  have hex : ∃ r, ∃ k, loopAt body k s = .inr r := ⟨r, k, h⟩
  unfold runLoop
  rw [dif_pos hex]
  obtain ⟨k', hk'⟩ := hex.choose_spec
  have h1 := loopAt_add body h k'
  have h2 := loopAt_add body hk' k
  rw [Nat.add_comm, h1] at h2
  exact congrArg some (Sum.inr.inj h2).symm

theorem runLoop_some_iff {body : σ → σ ⊕ ρ} {s : σ} {r : ρ} :
    runLoop body s = some r ↔ ∃ k, loopAt body k s = .inr r := by
  constructor
  · intro h
    unfold runLoop at h
    split_ifs at h with hex
    obtain ⟨k, hk⟩ := hex.choose_spec
    exact ⟨k, by rw [hk, Option.some.inj h]⟩
  · rintro ⟨k, hk⟩
    exact runLoop_of_loopAt hk

theorem runLoop_none_iff {body : σ → σ ⊕ ρ} {s : σ} :
    runLoop body s = none ↔ ∀ k, ∃ s', loopAt body k s = .inl s' := by
  constructor
  · intro h k
    cases hk : loopAt body k s with
    | inl s' => exact ⟨s', rfl⟩
    | inr r => rw [runLoop_of_loopAt hk] at h; exact absurd h (by simp)
  · intro h
    cases hr : runLoop body s with
    | none => rfl
    | some r =>
      obtain ⟨k, hk⟩ := runLoop_some_iff.mp hr
      obtain ⟨s', hs'⟩ := h k
      rw [hk] at hs'
      exact absurd hs' (by simp)

/-- Leaving the loop at once. -/
theorem runLoop_inr {body : σ → σ ⊕ ρ} {s : σ} {r : ρ} (h : body s = .inr r) : runLoop body s = some r :=
  runLoop_of_loopAt (k := 1) (by simp [loopAt, h])

/-- One more iteration. -/
theorem runLoop_inl {body : σ → σ ⊕ ρ} {s s' : σ} (h : body s = .inl s') :
    runLoop body s = runLoop body s' := by
  cases hr : runLoop body s' with
  | some r =>
    obtain ⟨k, hk⟩ := runLoop_some_iff.mp hr
    exact runLoop_of_loopAt (k := k + 1) (by simp [loopAt, h, hk])
  | none =>
    rw [runLoop_none_iff] at hr ⊢
    intro k
    cases k with
    | zero => exact ⟨s, rfl⟩
    | succ k =>
      obtain ⟨t, ht⟩ := hr k
      exact ⟨t, by simp [loopAt, h, ht]⟩

/-- Invariant rule: an invariant kept by the body holds of the state in which the loop is left. -/
theorem runLoop_invariant {body : σ → σ ⊕ ρ} {I : σ → Prop} {Q : ρ → Prop}
    (hstep : ∀ s s', I s → body s = .inl s' → I s') (hexit : ∀ s r, I s → body s = .inr r → Q r)
    {s : σ} {r : ρ} (hI : I s) (h : runLoop body s = some r) : Q r := by
  obtain ⟨k, hk⟩ := runLoop_some_iff.mp h
  clear h
  induction k generalizing s with
  | zero => simp [loopAt] at hk
  | succ k ih =>
    unfold loopAt at hk
    cases hb : body s with
    | inl s' => rw [hb] at hk; exact ih (hstep s s' hI hb) hk
    | inr r' => rw [hb] at hk; rw [← Sum.inr.inj hk]; exact hexit s r' hI hb

/-- Variant rule: a loop whose body strictly lowers a natural-number measure while an invariant holds is
left. -/
theorem runLoop_terminates {body : σ → σ ⊕ ρ} {I : σ → Prop} (μ : σ → ℕ)
    (hstep : ∀ s s', I s → body s = .inl s' → I s' ∧ μ s' < μ s) {s : σ} (hI : I s) :
    ∃ r, runLoop body s = some r := by
  induction hm : μ s using Nat.strong_induction_on generalizing s with
  | _ m ih =>
    cases hb : body s with
    | inr r => exact ⟨r, runLoop_inr hb⟩
    | inl s' =>
      obtain ⟨hI', hlt⟩ := hstep s s' hI hb
      rw [runLoop_inl hb]
      exact ih _ (hm ▸ hlt) hI' rfl

/-- A loop whose body never leaves it while an invariant holds runs forever. -/
theorem runLoop_forever {body : σ → σ ⊕ ρ} {I : σ → Prop} (hstep : ∀ s, I s → ∃ s', body s = .inl s' ∧ I s')
    {s : σ} (hI : I s) : runLoop body s = none := by
  rw [runLoop_none_iff]
  intro k
  induction k generalizing s with
  | zero => exact ⟨s, rfl⟩
  | succ k ih =>
    obtain ⟨s', hs', hI'⟩ := hstep s hI
    obtain ⟨t, ht⟩ := ih hI'
    exact ⟨t, by simp [loopAt, hs', ht]⟩

/-- Loops with related bodies have related outcomes. -/
theorem runLoop_rel {σ' ρ' : Type _} {body : σ → σ ⊕ ρ} {body' : σ' → σ' ⊕ ρ'} {R : σ → σ' → Prop}
    {Q : ρ → ρ' → Prop}
    (hstep : ∀ s t, R s t → (∃ s' t', body s = .inl s' ∧ body' t = .inl t' ∧ R s' t') ∨
      (∃ r r', body s = .inr r ∧ body' t = .inr r' ∧ Q r r'))
    {s : σ} {t : σ'} (h : R s t) :
    (runLoop body s = none ∧ runLoop body' t = none) ∨
      ∃ r r', runLoop body s = some r ∧ runLoop body' t = some r' ∧ Q r r' := by
  have key : ∀ k s t, R s t → (∃ s' t', loopAt body k s = .inl s' ∧ loopAt body' k t = .inl t' ∧ R s' t') ∨
      (∃ r r', loopAt body k s = .inr r ∧ loopAt body' k t = .inr r' ∧ Q r r') := by
    intro k
    induction k with
    | zero => intro s t h; exact Or.inl ⟨s, t, rfl, rfl, h⟩
    | succ k ih =>
      intro s t h
      rcases hstep s t h with ⟨s', t', h1, h2, h3⟩ | ⟨r, r', h1, h2, h3⟩
      · simp only [loopAt, h1, h2]
        exact ih _ _ h3
      · right; exact ⟨r, r', by simp [loopAt, h1], by simp [loopAt, h2], h3⟩
  by_cases hall : ∀ k, ∃ s', loopAt body k s = .inl s'
  · left
    refine ⟨runLoop_none_iff.mpr hall, runLoop_none_iff.mpr fun k => ?_⟩
    rcases key k s t h with ⟨_, t', _, h2, _⟩ | ⟨r, _, h1, _, _⟩
    · exact ⟨t', h2⟩
    · obtain ⟨s', hs'⟩ := hall k
      rw [h1] at hs'
      exact absurd hs' (by simp)
  · right
    push Not at hall
    obtain ⟨k, hk⟩ := hall
    rcases key k s t h with ⟨s', _, h1, _, _⟩ | ⟨r, r', h1, h2, h3⟩
    · exact absurd h1 (hk s')
    · exact ⟨r, r', runLoop_of_loopAt h1, runLoop_of_loopAt h2, h3⟩

end PyNLO
