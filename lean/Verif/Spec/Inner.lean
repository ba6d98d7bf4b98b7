/-
Specification: inner products of spectra, as a property of a relation "the call `e` on the vector `u` gave the vector `U`".
-/
import Verif.Spec.Identities

namespace OTFFT
open Finset

/-- inner product of two vectors of length `n` -/
noncomputable def innerProduct (n : ℕ) (a b : ℕ → ℂ) : ℂ := ∑ j ∈ range n, a j * (starRingEnd ℂ) (b j)

/-- Transforms of one direction change the inner product of two vectors by `n` and their normalisations only; `tol` is the error of one
transform, relative to the largest value `factor · length` the input can lead to, `Ma` and `Mb` bound the two vectors. -/
def KeepsInner (n : ℕ) (G : Entry → (ℕ → ℂ) → (ℕ → ℂ) → Prop) (tol : ℝ) : Prop :=
  ∀ e e' (a b A B : ℕ → ℂ) (Ma Mb : ℝ), e.sign = e'.sign → (∀ j < n, ‖a j‖ ≤ Ma) → (∀ j < n, ‖b j‖ ≤ Mb) → G e a A → G e' b B →
    ‖innerProduct n A B - ((e.factor n * e'.factor n * n : ℝ) : ℂ) * innerProduct n a b‖ ≤
      n * (e.factor n * n * (e'.factor n * n)) * (tol * (Mb + tol) + Ma * tol)

end OTFFT
