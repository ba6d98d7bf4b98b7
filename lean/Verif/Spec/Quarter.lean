/-
Signals delayed by a quarter of their length.
-/
import Verif.Spec.Hom
import Verif.Spec.Sign

namespace OTFFT

/-- For which compilations, classes, lengths and functions the theorem is: a multiple of 4 for the complex transforms, a multiple
of 8 for the forward real ones; with fused multiply-add only powers of two. -/
def Kind.QuarterLen (i : Target) : (k : Kind) → ℕ → k.Fn → Prop
  | .complex, n, _ | .fft0, n, _ => n % 4 = 0 ∧ (i.fused = false ∨ ∃ l, n = 2 ^ l)
  | .real, n, e => let e : Entry := e; n % 8 = 0 ∧ (i.fused = false ∨ ∃ l, n = 2 ^ l) ∧ e ∈ [Entry.fwd, .fwd0, .fwdu, .fwdn]
  | .dct, _, _ | .dct0, _, _ | .bluestein, _, _ => False

/-- the inverse transforms -/
def Entry.backward : Entry → Bool
  | .inv | .inv0 | .invu | .invn => true
  | .fwd | .fwd0 | .fwdu | .fwdn => false

/-- whether the function is an inverse transform -/
def Kind.isInv : (k : Kind) → k.Fn → Bool
  | .complex, e | .fft0, e | .real, e => let e : Entry := e; e.backward
  | .dct, _ | .dct0, _ | .bluestein, _ => false

/-- `b` is `a` times the `k`-th power of the imaginary unit: only real and imaginary parts exchanged and signs changed
(`r false` is to be read as "equal" and `r true` as "opposite") -/
def TurnedBy {F : Type} (r : Bool → F → F → Prop) (k : ℕ) (a b : Xmm F) : Prop :=
  match k % 4 with
  | 0 => r false (a 0) (b 0) ∧ r false (a 1) (b 1)
  | 1 => r true (a 1) (b 0) ∧ r false (a 0) (b 1)
  | 2 => r true (a 0) (b 0) ∧ r true (a 1) (b 1)
  | _ => r false (a 1) (b 0) ∧ r true (a 0) (b 1)

/-- Class `k`, length `n`, compiled for `i`: if one input is another one delayed by a quarter of the length, then element `t` of
the transform of the first (on objects of their own, in memories of their own) is that of the transform of the other one times
`(-i)^t`, or `i^t` for inverse transforms. -/
def QuarterDelay {F : Type} [FArith F] (i : Target) (thr : Thr) (k : Kind) (n : ℕ) (r : Bool → F → F → Prop) : Prop :=
  letI := i.arith F
  ∀ (w w' : World (Xmm F)) (c c' : (k.cls (Xmm F) thr).Call) (v v' : ℕ → Xmm F), w.WF → w'.WF →
    k.callOK n c w.heap → k.callOK n c' w'.heap → k.fn c = k.fn c' → k.QuarterLen i n (k.fn c) →
    Arr w.heap (k.input c) (k.need n c) v → Arr w'.heap (k.input c') (k.need n c') v' →
    (∀ t < n, Both (r false) (v t) (v' ((t + n / 4) % n))) →
    ∃ out out' : ℕ → Xmm F,
      ComputesIn (k.cls (Xmm F) thr) n [c] w (k.writes n c) (k.output c) n out ∧
      ComputesIn (k.cls (Xmm F) thr) n [c'] w' (k.writes n c') (k.output c') n out' ∧
      ∀ t < n, TurnedBy r (if k.isInv (k.fn c) then t else 3 * t) (out t) (out' t)

end OTFFT
