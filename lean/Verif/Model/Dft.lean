import Verif.Model.Freq
import Mathlib.Analysis.SpecialFunctions.Complex.Circle
import Mathlib.Algebra.BigOperators.Fin

/-!
# Model of the Fourier transform of `pfutil/fftWrap.go`

`NewFFTW(n)` (pfutil/fftWrap.go:16-23) creates two in-place complex plans for the side lengths `n`
with sign -1 (forward) and +1 (backward). FFTW is not modelled as an algorithm but by its
documentation: a multidimensional unnormalised discrete Fourier transform of an array stored in
row-major order (last index fastest). `FFT`/`IFFT` (pfutil/fftWrap.go:26-39) copy the data in,
execute the plan and copy the result back.
-/

namespace Gopf.Pfutil
open scoped BigOperators

/-- `exp(2 π i r)`. Part of the transform called at pfutil/fftWrap.go:26-39. -/
noncomputable def cis (r : ℚ) : ℂ := Complex.exp (2 * Real.pi * Complex.I * (r : ℂ))

/-- Row-major multi-index of flat index `i` (FFTW's storage order). Part of the transform called at
pfutil/fftWrap.go:26-39. -/
def rowMajor : List Nat → Nat → List Nat
  | [], _ => []
  | n :: ns, i => (i / ns.prod) % n :: rowMajor ns (i % ns.prod)

/-- `Σ_j k_j x_j / n_j` for multi-indices `k` and `x`. Part of the transform called at pfutil/fftWrap.go:26-39.
-/
def phaseSum : List Nat → List Nat → List Nat → ℚ
  | n :: ns, k :: ks, x :: xs => (k : ℚ) * x / n + phaseSum ns ks xs
  | _, _, _ => 0

/-- Phase of the DFT kernel for the flat indices `k` (bin) and `x` (node). Part of the transform called at
pfutil/fftWrap.go:26-39. -/
def phase (dims : List Nat) (k x : Nat) : ℚ := phaseSum dims (rowMajor dims k) (rowMajor dims x)

/-- `FFT`, pfutil/fftWrap.go:26-31. -/
noncomputable def fft (dims : List Nat) (data : Fin dims.prod → ℂ) : Fin dims.prod → ℂ :=
  fun k => ∑ x : Fin dims.prod, data x * cis (-phase dims k x)

/-- `IFFT`, pfutil/fftWrap.go:34-39. -/
noncomputable def ifft (dims : List Nat) (data : Fin dims.prod → ℂ) : Fin dims.prod → ℂ :=
  fun x => ∑ k : Fin dims.prod, data k * cis (phase dims k x)

end Gopf.Pfutil
