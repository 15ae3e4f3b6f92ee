import Verif.Model.PulseFiles
import Mathlib.Tactic.FieldSimp

/-!
# C142: exporting and importing spectra

Refuted: both methods raise on every pulse.  `gen_OSA` does so after it has changed the time window.
-/

namespace PyNLO.Pulse

/-- C142, refuted: `write_frog` raises `AttributeError` on every pulse, writes nothing and leaves the pulse alone, unless the caller has supplied
`get_AW` themselves. -/
theorem C142_write_frog_refuted (rest : PyM FileWorld Unit) (w : FileWorld) (h : "get_AW" ∉ w.own) :
    ∃ w', writeFrog rest w = (.error .AttributeError, w') ∧ w'.files = w.files ∧ w'.pulse = w.pulse := by
  refine ⟨{ w with own := "fileloc" :: w.own }, ?_, rfl, rfl⟩
  have e : readAttr "get_AW" { w with own := "fileloc" :: w.own } = (.error .AttributeError, { w with own := "fileloc" :: w.own }) := by
    unfold readAttr
    rw [if_neg]
    rintro (k | k)
    · revert k
      decide +kernel
    · rcases List.mem_cons.1 k with k | k
      · revert k
        decide +kernel
      · exact h k
  unfold writeFrog
  exact (PyM.bind_ok rfl).trans (PyM.bind_err e)

/-- C142, refuted: `gen_OSA` raises `AttributeError` on every pulse, but the time window has changed by then. -/
theorem C142_gen_osa_refuted (tw : ℝ) (rest : PyM FileWorld Unit) (w : FileWorld) (h : "c" ∉ w.own) :
    ∃ w', genOSA tw rest w = (.error .AttributeError, w') ∧ w'.files = w.files ∧ w'.pulse = setTimeWindowPs tw w.pulse := by
  refine ⟨{ w with own := "center_wl" :: "fileloc" :: w.own, pulse := setTimeWindowPs tw w.pulse }, ?_, rfl, rfl⟩
  have e : readAttr "c" { w with own := "center_wl" :: "fileloc" :: w.own, pulse := setTimeWindowPs tw w.pulse } =
      (.error .AttributeError, { w with own := "center_wl" :: "fileloc" :: w.own, pulse := setTimeWindowPs tw w.pulse }) := by
    unfold readAttr
    rw [if_neg]
    rintro (k | k)
    · revert k
      decide +kernel
    · rcases List.mem_cons.1 k with k | k
      · revert k
        decide +kernel
      · rcases List.mem_cons.1 k with k | k
        · revert k
          decide +kernel
        · exact h k
  unfold genOSA exceptIOError
  exact (PyM.bind_ok rfl).trans ((PyM.bind_ok rfl).trans ((PyM.bind_ok rfl).trans (PyM.bind_err e)))

/-- C142: with it the energy that `calc_epp` reports changes in proportion to the window, although the call failed. -/
theorem C142_gen_osa_energy (tw : ℝ) (rest : PyM FileWorld Unit) (w : FileWorld) (h : "c" ∉ w.own) (hr : w.pulse.ready = true) (ht : w.pulse.tw ≠ 0) {e : ℝ}
    (he : calcEpp w.pulse = .ok e) : calcEpp (genOSA tw rest w).2.pulse = .ok (tw / w.pulse.tw * e) := by
  obtain ⟨w', hw, -, hp⟩ := C142_gen_osa_refuted tw rest w h
  rw [hw, hp]
  revert he
  unfold calcEpp dT_mks dT AT
  simp only [setTimeWindowPs, setTimeWindow, hr, Bool.true_eq_false, if_false, except_bind_ok]
  cases w.pulse.aw with
  | none => intro he; simp at he
  | some a =>
    simp only
    rcases IFFT_t a with x | x
    · intro he
      simp at he
    · simp only [except_bind_ok]
      intro he
      injection he with he
      rw [← he]
      congr 1
      field_simp

/-- every fresh pulse meets the hypotheses -/
theorem C142_nonvacuous (rest : PyM FileWorld Unit) (p : Pulse) :
    (∃ w', writeFrog rest ⟨p, [], []⟩ = (.error .AttributeError, w')) ∧ (genOSA (p.tw + 1) rest ⟨p, [], []⟩).2.pulse.tw ≠ p.tw := by
  obtain ⟨w', h, -⟩ := C142_write_frog_refuted rest ⟨p, [], []⟩ (by simp)
  obtain ⟨v, k, -, e⟩ := C142_gen_osa_refuted (p.tw + 1) rest ⟨p, [], []⟩ (by simp)
  refine ⟨⟨w', h⟩, ?_⟩
  rw [k, e]
  show p.tw + 1 ≠ p.tw
  linarith

end PyNLO.Pulse
