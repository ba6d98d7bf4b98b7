/-
Specification: the textbook identities of a Fourier transform, as properties of a relation "the call `e` on the vector
`u` gives the vector `U`".  Independent of the model and of the definition of the transform.
-/
import Verif.Spec.Float
import Mathlib.Analysis.SpecialFunctions.Trigonometric.Basic
import Mathlib.Algebra.BigOperators.Group.Finset.Basic

namespace OTFFT

/-- sign of the exponent of a transform -/
def Entry.sign : Entry → ℝ
  | .fwd | .fwd0 | .fwdu | .fwdn => -1
  | .inv | .inv0 | .invu | .invn => 1

/-- transforms of opposite direction and equal normalisation -/
def opposite : List (Entry × Entry) :=
  [(.fwd0, .inv0), (.fwd0, .inv), (.fwd, .invn), (.fwdn, .invn), (.fwdu, .invu),
   (.inv0, .fwd0), (.inv, .fwd0), (.invn, .fwd), (.invn, .fwdn), (.invu, .fwdu)]

/-- `exp(i · 2π · a / n)` -/
noncomputable def turn (n : ℕ) (a : ℝ) : ℂ := Complex.exp (2 * Real.pi * Complex.I * a / n)

/-- `G e u U`: transform `e` of length `n` takes `u` to `U`. -/
structure FourierIdentities (n : ℕ) (G : Entry → (ℕ → ℂ) → (ℕ → ℂ) → Prop) : Prop where
  /-- rotating the input by `s` places multiplies bin `k` by a phase -/
  shift : ∀ e u U, G e u U → ∀ s : ℕ, G e (fun j => u ((j + s) % n)) fun k => turn n (-e.sign * (s * k)) * U k
  /-- multiplying the input by a tone rotates the bins -/
  modulate : ∀ e u U, G e u U → ∀ s : ℕ, G e (fun j => turn n (e.sign * (s * j)) * u j) fun k => U ((k + s) % n)
  /-- running the input backwards runs the bins backwards -/
  reverse : ∀ e u U, G e u U → G e (fun j => u ((n - j) % n)) fun k => U ((n - k) % n)
  /-- conjugating the input conjugates the bins and runs them backwards -/
  conj : ∀ e u U, G e u U → G e (fun j => (starRingEnd ℂ) (u j)) fun k => (starRingEnd ℂ) (U ((n - k) % n))
  /-- the opposite transform gives the bins backwards -/
  swap : ∀ e e' u U, (e, e') ∈ opposite → G e u U → G e' u fun k => U ((n - k) % n)
  /-- the opposite transform is the transform between two conjugations -/
  swapConj : ∀ e e' u U, (e, e') ∈ opposite → G e u U →
    G e' (fun j => (starRingEnd ℂ) (u j)) fun k => (starRingEnd ℂ) (U k)
  /-- the same transform twice runs the input backwards -/
  twice : ∀ e u U, G e u U → G e U fun j => (e.factor n : ℂ) ^ 2 * n * u ((n - j) % n)
  /-- an impulse becomes a tone -/
  impulse : ∀ e (a : ℂ) (s : ℕ), s < n → G e (fun j => if j = s then a else 0) fun k => e.factor n * a * turn n (e.sign * (s * k))
  /-- a tone of an integer frequency becomes an impulse -/
  tone : ∀ e (a : ℂ) (s : ℕ), s < n → G e (fun j => a * turn n (-e.sign * (s * j))) fun k => if k = s then e.factor n * n * a else 0

end OTFFT
