/-
Specification: correlation of two signals by three transforms, as a property of relations "the call `e` on the vector `u` gave the
vector `U`".
-/
import Verif.Spec.Identities

namespace OTFFT
open Finset

/-- circular cross-correlation of `a` and `b` at lag `t` -/
noncomputable def correlation (n : ℕ) (a b : ℕ → ℂ) (t : ℕ) : ℂ := ∑ j ∈ range n, a ((j + t) % n) * (starRingEnd ℂ) (b j)

/-- `G e u U` takes the signals to their spectra and `P e u U` takes the product of the spectra back: transform `e` of length `n` took
`u` to `U`.  `tol` and `tolP` are the errors of one transform, relative to the largest value `factor · length` the input can lead to;
`Ma` and `Mb` bound the two signals, `δ` is the error of the product of the first spectrum and the conjugate of the second. -/
def CorrelatesBy (n : ℕ) (G P : Entry → (ℕ → ℂ) → (ℕ → ℂ) → Prop) (tol tolP : ℝ) : Prop :=
  ∀ f g h (a b A B Q q : ℕ → ℂ) (Ma Mb δ : ℝ), f ∈ [Entry.fwd, .fwd0, .fwdu, .fwdn] → g ∈ [Entry.fwd, .fwd0, .fwdu, .fwdn] →
    h ∈ [Entry.inv, .inv0, .invu, .invn] → (∀ j < n, ‖a j‖ ≤ Ma) → (∀ j < n, ‖b j‖ ≤ Mb) → G f a A → G g b B → P h Q q →
    (∀ k < n, ‖Q k - A k * (starRingEnd ℂ) (B k)‖ ≤ δ) → ∀ t < n,
    ‖q t - ((f.factor n * g.factor n * h.factor n * n : ℝ) : ℂ) * correlation n a b t‖ ≤
      h.factor n * n * (tolP + δ + f.factor n * n * (g.factor n * n) * (tol * (Mb + tol) + Ma * tol))

end OTFFT
