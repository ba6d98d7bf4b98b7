/-
Specification: the discrete Fourier transforms, independent of the model.
-/
import Mathlib.Analysis.SpecialFunctions.Trigonometric.Basic
import Mathlib.Analysis.SpecialFunctions.Sqrt
import Mathlib.Algebra.BigOperators.Group.Finset.Basic

namespace OTFFT.Spec

open Finset

/-- `X[k] = Σ_j x[j] exp(-2πi jk/n)` -/
noncomputable def dft (n : ℕ) (x : ℕ → ℂ) (k : ℕ) : ℂ :=
  ∑ j ∈ range n, x j * Complex.exp (-(2 * Real.pi * Complex.I) * j * k / n)

/-- `x[j] = Σ_k X[k] exp(+2πi jk/n)` -/
noncomputable def idft (n : ℕ) (x : ℕ → ℂ) (j : ℕ) : ℂ :=
  ∑ k ∈ range n, x k * Complex.exp (2 * Real.pi * Complex.I * j * k / n)

/-- DCT-II, `X[k] = Σ_j x[j] cos(πk(2j+1)/(2n))` -/
noncomputable def dct (n : ℕ) (x : ℕ → ℝ) (k : ℕ) : ℝ :=
  ∑ j ∈ range n, x j * Real.cos (Real.pi * k * (2 * j + 1) / (2 * n))

/-- DCT-III, `x[j] = X[0] + 2 Σ_{k≥1} X[k] cos(πk(2j+1)/(2n))` -/
noncomputable def dct3 (n : ℕ) (X : ℕ → ℝ) (j : ℕ) : ℝ :=
  ∑ k ∈ range n, (if k = 0 then 1 else 2) * X k * Real.cos (Real.pi * k * (2 * j + 1) / (2 * n))

/-- conjugate symmetric vector of length `n` (the transform of a real vector) -/
def Hermitian (n : ℕ) (X : ℕ → ℂ) : Prop := ∀ k < n, X ((n - k) % n) = (starRingEnd ℂ) (X k)

/-- a real vector as a complex one -/
noncomputable def ofReal (r : ℕ → ℝ) : ℕ → ℂ := fun j => (r j : ℂ)

/-- energy of a vector -/
noncomputable def energy (n : ℕ) (x : ℕ → ℂ) : ℝ := ∑ j ∈ range n, Complex.normSq (x j)

/-- circular convolution -/
noncomputable def conv (n : ℕ) (a b : ℕ → ℂ) (k : ℕ) : ℂ :=
  ∑ j ∈ range n, a j * b ((k + n - j) % n)

end OTFFT.Spec
