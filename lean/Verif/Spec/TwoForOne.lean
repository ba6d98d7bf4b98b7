/-
Specification: two real signals transformed by one complex transform, as a property of two relations "the call `e` on the vector
`u` gave the vector `U`".
-/
import Verif.Spec.Identities

namespace OTFFT

/-- `G e z Z`: the complex transform `e` of length `n` took `z` to `Z`; `R e a A`: the transform `e` of a class for real signals
took `a` to `A` (forward: `a` is real; inverse: `A` is real).  `tolG` and `tolR` are the errors of one transform, relative to the
largest value `factor · length` the input can lead to. -/
structure TwoForOne (n : ℕ) (G R : Entry → (ℕ → ℂ) → (ℕ → ℂ) → Prop) (tolG tolR : ℝ) : Prop where
  /-- the spectra of two real signals, one as real and one as imaginary part of a complex signal -/
  forward : ∀ e (a b : ℕ → ℝ) A B z Z, e ∈ [Entry.fwd, .fwd0, .fwdu, .fwdn] → R e (fun j => a j) A → R e (fun j => b j) B → G e z Z →
    (∀ j < n, z j = a j + Complex.I * b j) → ∀ k < n,
    ‖2 * A k - (Z k + (starRingEnd ℂ) (Z ((n - k) % n)))‖ ≤ e.factor n * n * (2 * (tolG + tolR)) ∧
    ‖2 * Complex.I * B k - (Z k - (starRingEnd ℂ) (Z ((n - k) % n)))‖ ≤ e.factor n * n * (2 * (tolG + tolR)) ∧
    ‖Z k - (A k + Complex.I * B k)‖ ≤ e.factor n * n * (tolG + 2 * tolR)
  /-- two Hermitian spectra, the second multiplied by `i` and added to the first (up to `δ`), transformed back together -/
  inverse : ∀ e A B (a b : ℕ → ℝ) Z z δ, e ∈ [Entry.inv, .inv0, .invu, .invn] → R e A (fun j => a j) → R e B (fun j => b j) → G e Z z →
    (∀ k < n, ‖Z k - (A k + Complex.I * B k)‖ ≤ δ) → ∀ j < n,
    |(z j).re - a j| ≤ e.factor n * n * (tolG + δ + 2 * tolR) ∧ |(z j).im - b j| ≤ e.factor n * n * (tolG + δ + 2 * tolR)

end OTFFT
