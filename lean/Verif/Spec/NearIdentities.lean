/-
Specification: the textbook identities of a Fourier transform for an implementation that rounds, as properties of a
relation "the call `e` on the vector `u` gave the vector `U`" and of a tolerance.  Independent of the model and of the
definition of the transform.
-/
import Verif.Spec.Identities
import Verif.Spec.Api

namespace OTFFT

/-- `G e u U`: transform `e` of length `n` took `u` to `U`.  In every identity the second input may differ from the one
the identity asks for by `δ` (in doubles a rotated or conjugated vector is exact, `δ = 0`; a tone or a linear combination
is not).  `tol` is the error of one transform, relative to the largest value `factor · n` times the input can lead to. -/
structure NearIdentities (n : ℕ) (G : Entry → (ℕ → ℂ) → (ℕ → ℂ) → Prop) (tol : ℝ) : Prop where
  /-- equal inputs up to `δ` give equal outputs -/
  stable : ∀ e u U v V δ, G e u U → G e v V → (∀ j < n, ‖v j - u j‖ ≤ δ) →
    ∀ k < n, ‖V k - U k‖ ≤ e.factor n * n * (δ + 2 * tol)
  /-- a linear combination of inputs gives the linear combination of the outputs -/
  linear : ∀ e (a b : ℂ) u U v V x X δ, G e u U → G e v V → G e x X → (∀ j < n, ‖x j - (a * u j + b * v j)‖ ≤ δ) →
    ∀ k < n, ‖X k - (a * U k + b * V k)‖ ≤ e.factor n * n * (δ + (1 + ‖a‖ + ‖b‖) * tol)
  /-- rotating the input by `s` places multiplies bin `k` by a phase -/
  shift : ∀ e u U v V δ (s : ℕ), G e u U → G e v V → (∀ j < n, ‖v j - u ((j + s) % n)‖ ≤ δ) →
    ∀ k < n, ‖V k - turn n (-e.sign * (s * k)) * U k‖ ≤ e.factor n * n * (δ + 2 * tol)
  /-- multiplying the input by a tone rotates the bins -/
  modulate : ∀ e u U v V δ (s : ℕ), G e u U → G e v V → (∀ j < n, ‖v j - turn n (e.sign * (s * j)) * u j‖ ≤ δ) →
    ∀ k < n, ‖V k - U ((k + s) % n)‖ ≤ e.factor n * n * (δ + 2 * tol)
  /-- running the input backwards runs the bins backwards -/
  reverse : ∀ e u U v V δ, G e u U → G e v V → (∀ j < n, ‖v j - u ((n - j) % n)‖ ≤ δ) →
    ∀ k < n, ‖V k - U ((n - k) % n)‖ ≤ e.factor n * n * (δ + 2 * tol)
  /-- conjugating the input conjugates the bins and runs them backwards -/
  conj : ∀ e u U v V δ, G e u U → G e v V → (∀ j < n, ‖v j - (starRingEnd ℂ) (u j)‖ ≤ δ) →
    ∀ k < n, ‖V k - (starRingEnd ℂ) (U ((n - k) % n))‖ ≤ e.factor n * n * (δ + 2 * tol)
  /-- the opposite transform gives the bins backwards -/
  swap : ∀ e e' u U v V δ, (e, e') ∈ opposite → G e u U → G e' v V → (∀ j < n, ‖v j - u j‖ ≤ δ) →
    ∀ k < n, ‖V k - U ((n - k) % n)‖ ≤ e.factor n * n * (δ + 2 * tol)
  /-- the opposite transform is the transform between two conjugations -/
  swapConj : ∀ e e' u U v V δ, (e, e') ∈ opposite → G e u U → G e' v V → (∀ j < n, ‖v j - (starRingEnd ℂ) (u j)‖ ≤ δ) →
    ∀ k < n, ‖V k - (starRingEnd ℂ) (U k)‖ ≤ e.factor n * n * (δ + 2 * tol)
  /-- the same transform twice runs the input backwards -/
  twice : ∀ e u U v V δ, G e u U → G e v V → (∀ j < n, ‖v j - U j‖ ≤ δ) →
    ∀ k < n, ‖V k - (e.factor n : ℂ) ^ 2 * n * u ((n - k) % n)‖ ≤ e.factor n * n * (δ + (1 + e.factor n * n) * tol)
  /-- an impulse becomes a tone -/
  impulse : ∀ e (a : ℂ) (s : ℕ) v V δ, s < n → G e v V → (∀ j < n, ‖v j - (if j = s then a else 0)‖ ≤ δ) →
    ∀ k < n, ‖V k - e.factor n * a * turn n (e.sign * (s * k))‖ ≤ e.factor n * n * (δ + tol)
  /-- a tone of an integer frequency becomes an impulse: the leakage into every other bin is rounding error only -/
  tone : ∀ e (a : ℂ) (s : ℕ) v V δ, s < n → G e v V → (∀ j < n, ‖v j - a * turn n (-e.sign * (s * j))‖ ≤ δ) →
    ∀ k < n, ‖V k - (if k = s then e.factor n * n * a else 0)‖ ≤ e.factor n * n * (δ + tol)

/-- `u ↦ U` by the call `call e` of an object of class `X` set up for length `n`, in floating point: there is a vector of
finite `complex_t` of magnitude at most `M` with the values `u`, and wherever the program has it in an array the object
overwrites it by one with the values `U` -/
def RunsTo {F : Type} (val : F → ℝ) (fin : F → Prop) (M : ℝ) (X : Cls (Xmm F)) (call : Entry → Ptr → X.Call) (n : ℕ)
    (e : Entry) (u U : ℕ → ℂ) : Prop :=
  ∃ v out : ℕ → Xmm F, (∀ w x, UserArray w x n v → Computes X n [call e x] w x n out) ∧
    ∀ t < n, cfin fin (v t) ∧ ‖cval val (v t)‖ ≤ M ∧ cval val (v t) = u t ∧ cval val (out t) = U t

/-- the same for RealFFT, input array `x` and output array `y`.  Forward: `n` finite doubles of magnitude at most `M` with the
values `u`.  Inverse: `n / 2 + 1` finite `complex_t` of magnitude at most `M`, the first half of the Hermitian vector `u`. -/
def RealRunsTo {F : Type} [FArith F] (val : F → ℝ) (fin : F → Prop) (M : ℝ) (X : Cls (Xmm F)) (call : Entry → Ptr → Ptr → X.Call)
    (n : ℕ) (e : Entry) (u U : ℕ → ℂ) : Prop :=
  (e ∈ [Entry.fwd, .fwd0, .fwdu, .fwdn] ∧ ∃ (d : ℕ → F) (out : ℕ → Xmm F),
    (∀ w x y, w.WF → Arr w.heap x n (fun t => ![d t, fofNat 0]) → Alloc w.heap y n → Sep x n y n →
      Computes X n [call e x y] w y n out) ∧
    ∀ t < n, fin (d t) ∧ |val (d t)| ≤ M ∧ (val (d t) : ℂ) = u t ∧ cval val (out t) = U t) ∨
  (e ∈ [Entry.inv, .inv0, .invu, .invn] ∧ ∃ (v : ℕ → Xmm F) (out : ℕ → F),
    (∀ w x y, w.WF → Arr w.heap x (n / 2 + 1) v → Alloc w.heap x n → Alloc w.heap y n → Sep x n y n →
      ComputesIn X n [call e x y] w (Region x n) y n (fun t => ![out t, fofNat 0])) ∧
    Spec.Hermitian n u ∧ (∀ t ≤ n / 2, cfin fin (v t) ∧ ‖cval val (v t)‖ ≤ M ∧ cval val (v t) = u t) ∧
    ∀ t < n, (val (out t) : ℂ) = U t)

end OTFFT
