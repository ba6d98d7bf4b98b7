/-
Specification: two-dimensional transforms by rows and columns, as a property of two relations "the call `e` on the vector `u` gave
the vector `U`".
-/
import Verif.Spec.Identities

namespace OTFFT
open Finset

/-- element `(k, l)` of the two-dimensional discrete Fourier transform of a matrix with `m` rows and `n` columns, normalised like the
transforms in one dimension -/
noncomputable def Entry.plane (m n : ℕ) (e : Entry) (u : ℕ → ℕ → ℂ) (k l : ℕ) : ℂ :=
  e.factor m * e.factor n * ∑ r ∈ range m, ∑ c ∈ range n, u r c * turn m (e.sign * (r * k)) * turn n (e.sign * (c * l))

/-- `Gn e u U`, `Gm e v V`: transform `e` of length `n`, of length `m`, took `u` to `U`, `v` to `V`.  The rows of a matrix are
transformed, and then the columns of the result; or the columns first.  `tolN` and `tolM` are the errors of one transform, relative
to the largest value `factor · length` the input can lead to. -/
structure PlaneBy (m n : ℕ) (Gn Gm : Entry → (ℕ → ℂ) → (ℕ → ℂ) → Prop) (tolN tolM : ℝ) : Prop where
  rows : ∀ e (u R Z : ℕ → ℕ → ℂ), (∀ r < m, Gn e (u r) (R r)) → (∀ l < n, Gm e (fun r => R r l) fun k => Z k l) →
    ∀ k < m, ∀ l < n, ‖Z k l - e.plane m n u k l‖ ≤ e.factor m * m * (e.factor n * n * tolN + tolM)
  columns : ∀ e (u R Z : ℕ → ℕ → ℂ), (∀ c < n, Gm e (fun r => u r c) fun k => R k c) → (∀ k < m, Gn e (R k) (Z k)) →
    ∀ k < m, ∀ l < n, ‖Z k l - e.plane m n u k l‖ ≤ e.factor n * n * (e.factor m * m * tolM + tolN)

end OTFFT
