import Verif.Model.Fourier

/-
Model of `scipy.signal.hilbert` as ComplexBandpassFilter and ComplexFrequencyFilter use it for signals without imaginary part
(diamondback/filters/complex_bandpass_filter.py:51 and 120-121, diamondback/filters/complex_frequency_filter.py:55 and 123-124).
Simplification: exact complex arithmetic; an array of complex dtype (which scipy rejects even if every imaginary part is zero) is not
distinguished from a real one here (it is in Verif/Model/ComplexType.lean).
-/

namespace Verif

/-- The weight of bin `k` among `N`: `h[0] = h[N // 2] = 1, h[1 : N // 2] = 2` for even `N`, `h[0] = 1, h[1 : (N + 1) // 2] = 2` for odd
`N`, zero elsewhere (scipy.signal.hilbert, called in complex_bandpass_filter.py:121). -/
def hilbertWeight (N k : ℕ) : ℂ :=
  if N % 2 = 0 then
    if k = 0 ∨ k = N / 2 then 1 else if 1 ≤ k ∧ k < N / 2 then 2 else 0
  else if k = 0 then 1 else if 1 ≤ k ∧ k < (N + 1) / 2 then 2 else 0

/-- `scipy.signal.hilbert(x)`: `ifft(fft(x) * h)` (called in complex_bandpass_filter.py:121, complex_frequency_filter.py:124). -/
noncomputable def hilbertRef (x : List ℂ) : List ℂ :=
  ifft (List.zipWith (· * ·) (fft x) ((List.range x.length).map (hilbertWeight x.length)))

end Verif
