import Verif.Model.Ffts

/-!
# `src/pynlo/util/pynlo_ffts.py` for two-dimensional arrays, and `FFT_x`, `IFFT_x`

An array of shape `(n, m)` is a function of two indices.  The axis is 0 or 1; negative and invalid axes are not modelled, nor are axes of length zero, for which
NumPy raises `ValueError`.
-/

namespace PyNLO

variable {n m : ℕ}

/-- A NumPy routine on the lines along an axis: with `axis=0` (`false`) one line per second index, with `axis=1` (`true`) one per first index. -/
def alongAxis {α β : Type _} (f : ∀ {k : ℕ}, (Fin k → α) → Fin k → β) (ax : Bool) (A : Fin n → Fin m → α) : Fin n → Fin m → β :=
  match ax with
  | false => fun i j => f (fun i' => A i' j) i
  | true => fun i => f (A i)

/-- `src/pynlo/util/pynlo_ffts.py:26-27` `FFT_t(A, ax)` of a two-dimensional array. -/
noncomputable def fftT2 (ax : Bool) (A : Fin n → Fin m → ℂ) : Fin n → Fin m → ℂ := alongAxis ifftshift ax (alongAxis ifft ax (alongAxis fftshift ax A))

/-- `src/pynlo/util/pynlo_ffts.py:28-29` `IFFT_t(A, ax)` of a two-dimensional array. -/
noncomputable def ifftT2 (ax : Bool) (A : Fin n → Fin m → ℂ) : Fin n → Fin m → ℂ := alongAxis ifftshift ax (alongAxis fft ax (alongAxis fftshift ax A))

/-- `src/pynlo/util/pynlo_ffts.py:32-33` `FFT_x(self, A)` of a one-dimensional array; `self` is not used. -/
noncomputable def fftX (A : Fin n → ℂ) : Fin n → ℂ := ifftshift (fft (fftshift A))

/-- `src/pynlo/util/pynlo_ffts.py:34-35` `IFFT_x(self, A)` of a one-dimensional array. -/
noncomputable def ifftX (A : Fin n → ℂ) : Fin n → ℂ := ifftshift (ifft (fftshift A))

/-- `src/pynlo/util/pynlo_ffts.py:32-33` `FFT_x(self, A)` of a two-dimensional array: without `axes` the shifts act on both axes, one after the other, and `fft` on
the last one. -/
noncomputable def fftX2 (A : Fin n → Fin m → ℂ) : Fin n → Fin m → ℂ :=
  alongAxis ifftshift true (alongAxis ifftshift false (alongAxis fft true (alongAxis fftshift true (alongAxis fftshift false A))))

/-- `src/pynlo/util/pynlo_ffts.py:34-35` `IFFT_x(self, A)` of a two-dimensional array. -/
noncomputable def ifftX2 (A : Fin n → Fin m → ℂ) : Fin n → Fin m → ℂ :=
  alongAxis ifftshift true (alongAxis ifftshift false (alongAxis ifft true (alongAxis fftshift true (alongAxis fftshift false A))))

end PyNLO
