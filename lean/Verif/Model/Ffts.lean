import Verif.Py.Fft

/-! # Model of `src/pynlo/util/pynlo_ffts.py` -/

namespace PyNLO

/-- `src/pynlo/util/pynlo_ffts.py:26-27` `FFT_t` for a one-dimensional array of length `n ≥ 1`. -/
noncomputable def fftT {n : ℕ} (A : Fin n → ℂ) : Fin n → ℂ := ifftshift (ifft (fftshift A))

/-- `src/pynlo/util/pynlo_ffts.py:28-29` `IFFT_t` for a one-dimensional array of length `n ≥ 1`. -/
noncomputable def ifftT {n : ℕ} (A : Fin n → ℂ) : Fin n → ℂ := ifftshift (fft (fftshift A))

/-- `src/pynlo/util/pynlo_ffts.py:26-27` `FFT_t` on an array object; NumPy raises `ValueError`
("Invalid number of FFT data points (0)") for an empty array. -/
noncomputable def FFT_t (A : Vec ℂ) : Except PyErr (Vec ℂ) :=
  if A.len = 0 then .error .ValueError else .ok ⟨A.len, fftT A.val⟩

/-- `src/pynlo/util/pynlo_ffts.py:28-29` `IFFT_t` on an array object, empty arrays as for `FFT_t`. -/
noncomputable def IFFT_t (A : Vec ℂ) : Except PyErr (Vec ℂ) :=
  if A.len = 0 then .error .ValueError else .ok ⟨A.len, ifftT A.val⟩

end PyNLO
