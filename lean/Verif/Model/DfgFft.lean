import Verif.Py.Fft

/-!
# `fftcomputer`

`src/pynlo/interactions/ThreeWaveMixing/DFG_integrand.py:579-625`.  The arrays given to `corr` and `conv` have `gridsize`
entries, as in `deriv`.
-/

namespace PyNLO.Dfg

variable {n : ℕ}

/-- The work buffers of a `fftcomputer` of size `n` (`DFG_integrand.py:580-600`).  With pyFFTW they start with arbitrary
contents, without it with zeros; `fft()` and `ifft()` behave alike in both cases. -/
structure FftC (n : ℕ) where
  corrin : Fin (2 * n) → ℂ
  transfer : Fin (2 * n) → ℂ
  backout : Fin (2 * n) → ℂ

/-- `DFG_integrand.py:590-592`. -/
def FftC.zeros (n : ℕ) : FftC n := ⟨fun _ => 0, fun _ => 0, fun _ => 0⟩

/-- `self.fft()` (`DFG_integrand.py:593-595`). -/
noncomputable def FftC.fft (s : FftC n) : FftC n := { s with transfer := PyNLO.fft s.corrin }

/-- `self.ifft()` (`DFG_integrand.py:596-598`). -/
noncomputable def FftC.ifft (s : FftC n) : FftC n := { s with backout := PyNLO.ifft s.transfer }

/-- `self.corrin[:] = 0`. -/
def FftC.clear (s : FftC n) : FftC n := { s with corrin := fun _ => 0 }

/-- `self.corrin[:n] = x`. -/
def FftC.setLow (s : FftC n) (x : Fin n → ℂ) : FftC n :=
  { s with corrin := fun k => if h : (k : ℕ) < n then x ⟨k, h⟩ else s.corrin k }

/-- `self.corrin[n:] = x`. -/
def FftC.setHigh (s : FftC n) (x : Fin n → ℂ) : FftC n :=
  { s with corrin := fun k => if h : n ≤ (k : ℕ) then x ⟨k - n, by have := k.isLt; omega⟩ else s.corrin k }

/-- `fftpack.ifftshift(np.copy(y))[(n>>1):n+(n>>1)]` of a buffer (`DFG_integrand.py:612`, `625`). -/
def window (y : Fin (2 * n) → ℂ) : Fin n → ℂ := fun m => ifftshift y ⟨n / 2 + m, by have := m.isLt; omega⟩

/-- `corr` (`DFG_integrand.py:601-612`): the value returned and the buffers afterwards.  `ans` is the transfer buffer. -/
noncomputable def FftC.corr (s : FftC n) (data1 data2 : Fin n → ℂ) : (Fin n → ℂ) × FftC n :=
  let s1 := (s.clear.setLow data2).fft
  let temp := fun k => (starRingEnd ℂ) (s1.transfer k)
  let s2 := (s1.clear.setLow data1).fft
  let s3 : FftC n := { s2 with transfer := fun k => s2.transfer k * temp k }
  let s4 := s3.ifft
  (window s4.backout, s4)

/-- `conv` (`DFG_integrand.py:614-625`). -/
noncomputable def FftC.conv (s : FftC n) (resp sig : Fin n → ℂ) : (Fin n → ℂ) × FftC n :=
  let s1 := (s.clear.setHigh resp).fft
  let temp := s1.transfer
  let s2 := (s1.clear.setLow sig).fft
  let s3 : FftC n := { s2 with transfer := fun k => s2.transfer k * temp k }
  let s4 := s3.ifft
  (window s4.backout, s4)

end PyNLO.Dfg
