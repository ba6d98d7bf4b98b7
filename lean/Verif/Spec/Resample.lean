/-
Specification: how transforms of length `n` and of a multiple `m * n` of it are related (zero padding, repetition, stretching,
decimation, folding, polyphase splitting), for an implementation that rounds, as properties of two relations "the call `e` on
the vector `u` gave the vector `U`".  Independent of the model and of the definition of the transform.
-/
import Verif.Spec.Identities

namespace OTFFT
open Finset

/-- `Gs e u U`: transform `e` of length `n` took `u` to `U`; `Gl e v V`: transform `e` of length `m * n` took `v` to `V`.  The
two may normalise differently (`e.factor n` and `e.factor (m * n)`), so each result is multiplied by the factor of the other
transform.  `tolS` and `tolL` are the errors of one short and of one long transform, relative to the largest value
`factor · length` the input can lead to: with both 0 the identities are exact. -/
structure Resample (n m : ℕ) (Gs Gl : Entry → (ℕ → ℂ) → (ℕ → ℂ) → Prop) (tolS tolL : ℝ) : Prop where
  /-- zeros appended to the input: every `m`-th bin is the old bin, the others interpolate -/
  pad : ∀ e u U v V, Gs e u U → Gl e v V → (∀ j < m * n, v j = if j < n then u j else 0) →
    ∀ k < n, ‖e.factor n * V (m * k) - e.factor (m * n) * U k‖ ≤ e.factor n * e.factor (m * n) * (m * n * tolL + n * tolS)
  /-- the input repeated `m` times: the old bins times `m`, with `m - 1` zeros between them -/
  tile : ∀ e u U v V, Gs e u U → Gl e v V → (∀ j < m * n, v j = u (j % n)) →
    ∀ k < m * n, ‖e.factor n * V k - (if m ∣ k then e.factor (m * n) * (m * U (k / m)) else 0)‖ ≤
      e.factor n * e.factor (m * n) * (m * n * tolL + m * n * tolS)
  /-- `m - 1` zeros put between the elements of the input: the old bins repeated `m` times -/
  stretch : ∀ e u U v V, Gs e u U → Gl e v V → (∀ j < m * n, v j = if m ∣ j then u (j / m) else 0) →
    ∀ k < m * n, ‖e.factor n * V k - e.factor (m * n) * U (k % n)‖ ≤ e.factor n * e.factor (m * n) * (m * n * tolL + n * tolS)
  /-- every `m`-th element of the input: the bins alias -/
  decimate : ∀ e u U v V, Gs e u U → Gl e v V → (∀ j < n, u j = v (m * j)) →
    ∀ k < n, ‖e.factor (m * n) * (m * U k) - e.factor n * ∑ i ∈ range m, V (k + n * i)‖ ≤
      e.factor n * e.factor (m * n) * (m * (m * n * tolL) + m * n * tolS)
  /-- the `m` stretches of `n` elements of the input added up (each sum correct up to `δ`): every `m`-th bin -/
  fold : ∀ e u U v V δ, Gs e u U → Gl e v V → (∀ j < n, ‖u j - ∑ i ∈ range m, v (j + n * i)‖ ≤ δ) →
    ∀ k < n, ‖e.factor (m * n) * U k - e.factor n * V (m * k)‖ ≤
      e.factor n * e.factor (m * n) * (m * n * tolL + n * (δ + tolS))
  /-- the `m` interleaved parts of the input transformed separately give the whole transform -/
  split : ∀ e (u U : ℕ → ℕ → ℂ) v V, (∀ r < m, Gs e (u r) (U r)) → Gl e v V → (∀ r < m, ∀ j < n, u r j = v (m * j + r)) →
    ∀ k < m * n, ‖e.factor n * V k - e.factor (m * n) * ∑ r ∈ range m, turn (m * n) (e.sign * (r * k)) * U r (k % n)‖ ≤
      e.factor n * e.factor (m * n) * (m * n * tolL + m * n * tolS)

end OTFFT
