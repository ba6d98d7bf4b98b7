/-
Specification: the cosine transforms of length `n` against the Fourier transforms of length `2 * n` of the signal followed by its
mirror image, as a property of two relations "the call `e` on the vector `u` gave the vector `U`".
-/
import Verif.Spec.NearIdentities

namespace OTFFT

/-- a cosine transform and the Fourier transform in the same direction -/
def forwardPairs : List (DctEntry × Entry) :=
  [(.fwd, .fwd), (.fwd, .fwdn), (.fwd, .fwdu), (.fwd, .fwd0), (.fwdn, .fwd), (.fwdn, .fwdn), (.fwdn, .fwdu), (.fwdn, .fwd0),
   (.fwd0, .fwd), (.fwd0, .fwdn), (.fwd0, .fwdu), (.fwd0, .fwd0)]

def inversePairs : List (DctEntry × Entry) :=
  [(.inv, .inv), (.inv, .inv0), (.inv, .invu), (.inv, .invn), (.inv0, .inv), (.inv0, .inv0), (.inv0, .invu), (.inv0, .invn),
   (.invn, .inv), (.invn, .inv0), (.invn, .invu), (.invn, .invn)]

/-- `D d r R`: cosine transform `d` of length `n` took the real vector `r` to `R`; `G e v V`: Fourier transform `e` of length
`2 * n` took `v` to `V`.  The two may normalise differently, so each result is multiplied by the factor of the other transform.
`tolD` and `tolG` are the errors of one transform, relative to the largest value `factor · length` the input can lead to. -/
structure Mirrored (n : ℕ) (D : DctEntry → (ℕ → ℝ) → (ℕ → ℝ) → Prop) (G : Entry → (ℕ → ℂ) → (ℕ → ℂ) → Prop) (tolD tolG : ℝ) :
    Prop where
  /-- the spectrum of the signal followed by its mirror image is the cosine transform, doubled and turned by half a sample -/
  forward : ∀ d e r R v V, (d, e) ∈ forwardPairs → D d r R → G e v V → (∀ j < n, v j = r j ∧ v (2 * n - 1 - j) = r j) →
    ∀ k < n, ‖d.factor n * V k - e.factor (2 * n) * (2 * turn (4 * n) k * R k)‖ ≤
      d.factor n * e.factor (2 * n) * (2 * n * (tolG + tolD))
  /-- and its middle bin is zero -/
  middle : ∀ e (r : ℕ → ℝ) v V, e ∈ [Entry.fwd, .fwd0, .fwdu, .fwdn] → G e v V →
    (∀ j < n, v j = r j ∧ v (2 * n - 1 - j) = r j) → ‖V n‖ ≤ e.factor (2 * n) * (2 * n * tolG)
  /-- the coefficients turned by half a sample, a zero, and their mirror image turned the other way, up to `δ`: the inverse Fourier
  transform is the inverse cosine transform followed by its mirror image -/
  inverse : ∀ d e r R v V δ, (d, e) ∈ inversePairs → D d r R → G e v V → ‖v n‖ ≤ δ →
    (∀ k < n, ‖v k - turn (4 * n) k * r k‖ ≤ δ) → (∀ k < n, 0 < k → ‖v (2 * n - k) - turn (4 * n) (-k) * r k‖ ≤ δ) →
    ∀ j < n, ‖d.factor n * V j - e.factor (2 * n) * R j‖ ≤ d.factor n * e.factor (2 * n) * (n * (2 * (tolG + δ) + tolD)) ∧
      ‖d.factor n * V (2 * n - 1 - j) - e.factor (2 * n) * R j‖ ≤ d.factor n * e.factor (2 * n) * (n * (2 * (tolG + δ) + tolD))

/-- `r ↦ R` by the call `d` of a RealDCT object of length `n`, in floating point: there are `n` finite doubles of magnitude at most
`M` with the values `r`, and wherever the program has them in an array the object overwrites them by doubles with the values `R` -/
def DctRunsTo {F : Type} [FArith F] (val : F → ℝ) (fin : F → Prop) (M : ℝ) (X : Cls (Xmm F)) (call : DctEntry → Ptr → X.Call) (n : ℕ)
    (d : DctEntry) (r R : ℕ → ℝ) : Prop :=
  ∃ v out : ℕ → F, (∀ w x, UserArray w x n (fun t => ![v t, fofNat 0]) →
      Computes X n [call d x] w x n (fun t => ![out t, fofNat 0])) ∧
    ∀ t < n, fin (v t) ∧ |val (v t)| ≤ M ∧ val (v t) = r t ∧ val (out t) = R t

end OTFFT
