/-
Signals delayed by half their length.
-/
import Verif.Spec.Hom

namespace OTFFT

/-- For which classes, lengths and functions the theorem is: an even length for the complex transforms, a multiple of 4 for
the forward real ones. -/
def Kind.HalfLen : (k : Kind) → ℕ → k.Fn → Prop
  | .complex, n, _ | .fft0, n, _ => n % 2 = 0
  | .real, n, e => let e : Entry := e; n % 4 = 0 ∧ e ∈ [Entry.fwd, .fwd0, .fwdu, .fwdn]
  | .dct, _, _ | .dct0, _, _ | .bluestein, _, _ => False

/-- the relation between elements number `t`: `r0` for even ones, `r1` for odd ones -/
def EvenOdd {F : Type} (r0 r1 : F → F → Prop) (t : ℕ) (a b : Xmm F) : Prop := if t % 2 = 0 then Both r0 a b else Both r1 a b

/-- Class `k`, length `n`, compiled for `i`: if every element of one input is related by `rin` to the element half the length
further on of another one, then the results of a transform of the two (on objects of their own, in memories of their own) are
related by `r0` in the elements of even and by `r1` in those of odd number. -/
def HalfDelay {F : Type} [FArith F] (i : Target) (thr : Thr) (k : Kind) (n : ℕ) (rin r0 r1 : F → F → Prop) : Prop :=
  letI := i.arith F
  ∀ (w w' : World (Xmm F)) (c c' : (k.cls (Xmm F) thr).Call) (v v' : ℕ → Xmm F), w.WF → w'.WF →
    k.callOK n c w.heap → k.callOK n c' w'.heap → k.fn c = k.fn c' → k.HalfLen n (k.fn c) →
    Arr w.heap (k.input c) (k.need n c) v → Arr w'.heap (k.input c') (k.need n c') v' →
    (∀ t < n, Both rin (v t) (v' ((t + n / 2) % n))) →
    ∃ out out' : ℕ → Xmm F,
      ComputesIn (k.cls (Xmm F) thr) n [c] w (k.writes n c) (k.output c) n out ∧
      ComputesIn (k.cls (Xmm F) thr) n [c'] w' (k.writes n c') (k.output c') n out' ∧
      ∀ t < n, EvenOdd r0 r1 t (out t) (out' t)

end OTFFT
