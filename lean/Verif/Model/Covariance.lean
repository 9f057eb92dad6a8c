import Mathlib.Analysis.SpecialFunctions.Complex.CircleAddChar
import Mathlib.Analysis.SpecialFunctions.Exp
import Mathlib.Analysis.SpecialFunctions.Sqrt

/-!
# Generation of the Gaussian field

Source: `dune/multiscale/problems/random_permeability.hh`, `dune/multiscale/problems/random.hh`.

All processes together: the distribution of the global arrays in slabs is treated in `Model/RandomField`.  Real and complex numbers
with exact arithmetic.  `fftw_execute` is modelled by the definition of the (unnormalised) discrete Fourier transform in
the documentation of FFTW; the transposed storage of the transformed array is not visible, as forward
transform writes it and backward transform reads it.
-/

noncomputable section

namespace Verif.Covariance

/-- Indices of the arrays of `M` entries in each direction. -/
abbrev Idx (dim M : ℕ) := Fin dim → ZMod M

/-- random.hh:70-77 `Correlation::operator()`. -/
def correlation (corrLen sigma : ℝ) {dim : ℕ} (d : Fin dim → ℝ) : ℝ :=
  sigma * sigma * Real.exp (-Real.sqrt (∑ i, d i * d i) / corrLen)

/-- random_permeability.hh:145, 147 (175, 177, 179 in three dimensions): the mirrored index. -/
def mirrored (N i : ℕ) : ℕ := if i > N then 2 * N - i else i

/-- random_permeability.hh:143-151 (173-184): the array to be transformed. -/
def extension {dim : ℕ} (corr : (Fin dim → ℝ) → ℝ) (N : ℕ) (j : Idx dim (2 * N)) : ℝ :=
  corr fun i => mirrored N (j i).val * (1 / N)

variable {dim M : ℕ} [NeZero M]

/-- The kernel `exp(2 pi i (j . k) / M)`. -/
def kernel (j k : Idx dim M) : ℂ := ZMod.stdAddChar (∑ i, j i * k i)

/-- Forward transform, random_permeability.hh:152 (185). -/
def forward (c : Idx dim M → ℝ) (k : Idx dim M) : ℂ := ∑ j, (c j : ℂ) * kernel (-j) k

/-- random_permeability.hh:154-159 (187-192): the coefficients, from the real part of the transform. -/
def coeff (c : Idx dim M → ℝ) (k : Idx dim M) : ℝ := Real.sqrt (1 / M ^ dim * |(forward c k).re|)

variable {H : Type} [AddCommGroup H] [Module ℝ H]

/-- random_permeability.hh:308-312: multiplication by the random numbers `eta` (real part) and `xi` (imaginary part) and
backward transform; the real part of the result.  The random numbers are in any real vector space: real numbers for
one realisation, square integrable functions for the random variables. -/
def fieldRe (a : Idx dim M → ℝ) (eta xi : Idx dim M → H) (j : Idx dim M) : H :=
  ∑ k, ((a k * (kernel j k).re) • eta k - (a k * (kernel j k).im) • xi k)

/-- The imaginary part of the result. -/
def fieldIm (a : Idx dim M → ℝ) (eta xi : Idx dim M → H) (j : Idx dim M) : H :=
  ∑ k, ((a k * (kernel j k).im) • eta k + (a k * (kernel j k).re) • xi k)

end Verif.Covariance
