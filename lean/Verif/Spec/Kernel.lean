/-
What it means that one of the algorithm classes, used directly, computes something.
-/
import Verif.Model.Api
import Verif.Spec.Api
import Verif.Spec.DFT

namespace OTFFT

/-- The lengths one of the algorithm classes can be used with: powers of two up to 2^24 for all of them; the mixed-radix class
also handles every other supported length. -/
def KernelLen (kind : AlgoKind) (n : ℕ) : Prop := (∃ k, 1 ≤ k ∧ k ≤ 24 ∧ n = 2 ^ k) ∨ kind = .mixed ∧ ValidLen n

/-- The class `kind`, set up for length `n` and called once with data `x` and work area `y`, leaves `out` in `x` and writes
nothing but `x` and `y`, under every schedule and without undefined behaviour; the only way it fails is that there is no memory. -/
def KernelComputes {F C : Type} [DArith F] [CArith F C] (thr : Thr) (kind : AlgoKind) (n : ℕ) (inv : Bool) (mode : ScaleMode)
    (x y : Ptr) (w : World C) (out : ℕ → C) : Prop :=
  (algoOnce C thr kind n inv mode x y).wp (fun ok w' => ok = true →
    Arr w'.heap x n out ∧ ∀ l, l ∉ Region x n ∪ Region y n → w'.heap l = w.heap l) w ∧
  (algoOnce C thr kind n inv mode x y).NoFail (fun ok => ok = true)

/-- the factor of a normalisation mode -/
noncomputable def modeFactor (n : ℕ) : ScaleMode → ℝ
  | .scale_1 => 1
  | .scale_unitary => 1 / √n
  | .scale_length => 1 / n

/-- the exact normalised transform -/
noncomputable def kernelExact (inv : Bool) (mode : ScaleMode) (n : ℕ) (v : ℕ → ℂ) (t : ℕ) : ℂ :=
  (modeFactor n mode : ℂ) * if inv then Spec.idft n v t else Spec.dft n v t

end OTFFT
