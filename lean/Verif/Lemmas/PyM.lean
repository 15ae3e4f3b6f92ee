import Verif.Py.Basic

/-! # Invariant preservation for modelled method bodies -/

namespace PyNLO.PyM

variable {σ α β : Type _}

/-- Every run of `m` from a state satisfying `I` ends (normally or by raising) in one satisfying `I`. -/
def Pres (I : σ → Prop) (m : PyM σ α) : Prop := ∀ s, I s → I (m s).2

theorem Pres.pure {I : σ → Prop} (a : α) : Pres I (Pure.pure a : PyM σ α) := fun _ h => h

theorem Pres.bind {I : σ → Prop} {x : PyM σ α} {f : α → PyM σ β} (hx : Pres I x)
    (hf : ∀ a, Pres I (f a)) : Pres I (x >>= f) := by
  intro s hs
  rw [bind_apply]
  have h1 := hx s hs
  rcases h : x s with ⟨r, s'⟩
  rw [h] at h1
  cases r with
  | ok a => exact hf a s' h1
  | error e => exact h1

theorem Pres.throw {I : σ → Prop} (e : PyErr) : Pres I (PyM.throw e : PyM σ α) := fun _ h => h
theorem Pres.lift {I : σ → Prop} (x : Except PyErr α) : Pres I (PyM.lift x : PyM σ α) := fun _ h => h
theorem Pres.read {I : σ → Prop} (f : σ → Except PyErr α) : Pres I (PyM.read f) := fun _ h => h
theorem Pres.get {I : σ → Prop} : Pres I (PyM.get : PyM σ σ) := fun _ h => h
theorem Pres.modify {I : σ → Prop} {f : σ → σ} (hf : ∀ s, I s → I (f s)) : Pres I (PyM.modify f) :=
  fun s h => hf s h
theorem Pres.ite {I : σ → Prop} {c : Prop} [Decidable c] {x y : PyM σ α} (hx : Pres I x)
    (hy : Pres I y) : Pres I (if c then x else y) := by split <;> assumption
theorem Pres.dite {I : σ → Prop} {c : Prop} [Decidable c] {x : c → PyM σ α} {y : ¬c → PyM σ α}
    (hx : ∀ h, Pres I (x h)) (hy : ∀ h, Pres I (y h)) : Pres I (if h : c then x h else y h) := by
  split
  · exact hx _
  · exact hy _

end PyNLO.PyM
