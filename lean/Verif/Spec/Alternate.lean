/-
Signals with every other element negated.
-/
import Verif.Spec.Hom

namespace OTFFT

/-- the classes of complex transforms that the statement below is about -/
def Kind.Plain (k : Kind) : Prop := k = .complex ∨ k = .fft0

/-- Class `k`, length `n`, compiled for `i`: if the elements of two inputs are related by `r0` where their number is even and
by `r1` where it is odd, every element of the result of a transform of the first is related by `rout` to the element half the
length further on (cyclically) of that of the second (on objects of their own, in memories of their own). -/
def AlternateShift {F : Type} [FArith F] (i : Target) (thr : Thr) (k : Kind) (n : ℕ) (r0 r1 rout : F → F → Prop) : Prop :=
  letI := i.arith F
  ∀ (w w' : World (Xmm F)) (c c' : (k.cls (Xmm F) thr).Call) (v v' : ℕ → Xmm F), w.WF → w'.WF →
    k.callOK n c w.heap → k.callOK n c' w'.heap → k.fn c = k.fn c' →
    Arr w.heap (k.input c) (k.need n c) v → Arr w'.heap (k.input c') (k.need n c') v' →
    (∀ t < n, (t % 2 = 0 → Both r0 (v t) (v' t)) ∧ (t % 2 = 1 → Both r1 (v t) (v' t))) →
    ∃ out out' : ℕ → Xmm F,
      ComputesIn (k.cls (Xmm F) thr) n [c] w (k.writes n c) (k.output c) n out ∧
      ComputesIn (k.cls (Xmm F) thr) n [c'] w' (k.writes n c') (k.output c') n out' ∧
      ∀ t < n, Both rout (out t) (out' ((t + n / 2) % n))

/-- The same for inverse transforms of `RealFFT`, length `n`: the input is the half spectrum, elements 0 to `n/2`. -/
def AlternateShiftReal {F : Type} [FArith F] (i : Target) (thr : Thr) (n : ℕ) (r0 r1 rout : F → F → Prop) : Prop :=
  letI := i.arith F
  ∀ (w w' : World (Xmm F)) (e : Entry) (x y x' y' : Ptr) (v v' : ℕ → Xmm F), w.WF → w'.WF → e ∈ [Entry.inv, .inv0, .invu, .invn] →
    realOK n (e, x, y) w.heap → realOK n (e, x', y') w'.heap →
    Arr w.heap x (n / 2 + 1) v → Arr w'.heap x' (n / 2 + 1) v' →
    (∀ t ≤ n / 2, (t % 2 = 0 → Both r0 (v t) (v' t)) ∧ (t % 2 = 1 → Both r1 (v t) (v' t))) →
    ∃ out out' : ℕ → Xmm F,
      ComputesIn (realFFT (Xmm F) thr) n [(e, x, y)] w (Region x n ∪ Region y n) y n out ∧
      ComputesIn (realFFT (Xmm F) thr) n [(e, x', y')] w' (Region x' n ∪ Region y' n) y' n out' ∧
      ∀ t < n, Both rout (out t) (out' ((t + n / 2) % n))

end OTFFT
