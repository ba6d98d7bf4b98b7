/-
Cosine transforms of reversed signals.
-/
import Verif.Spec.Hom

namespace OTFFT

/-- the function is a forward cosine transform, of `RealDCT` or `DCT0` -/
def Kind.CosineForward : (k : Kind) → k.Fn → Prop
  | .dct, e | .dct0, e => let e : DctEntry := e; e ∈ [DctEntry.fwd, .fwd0, .fwdn]
  | .complex, _ | .real, _ | .bluestein, _ | .fft0, _ => False

/-- the function is an inverse cosine transform, of `RealDCT` or `DCT0` -/
def Kind.CosineInverse : (k : Kind) → k.Fn → Prop
  | .dct, e | .dct0, e => let e : DctEntry := e; e ∈ [DctEntry.inv, .inv0, .invn]
  | .complex, _ | .real, _ | .bluestein, _ | .fft0, _ => False

/-- Class `k`, length `n`, compiled for `i`: if the array `d` (of doubles) is `d'` in reverse, the coefficients of the cosine
transform of `d` (on objects of their own, in memories of their own) are those of `d'`, the odd ones with the opposite sign.
(`r false` is to be read as "equal" and `r true` as "opposite"; a cell of a model array holds a complex number, that of an array
of doubles has imaginary part 0.) -/
def CosineReverse {F : Type} [FArith F] (i : Target) (thr : Thr) (k : Kind) (n : ℕ) (r : Bool → F → F → Prop) : Prop :=
  letI := i.arith F
  ∀ (w w' : World (Xmm F)) (c c' : (k.cls (Xmm F) thr).Call) (d d' : ℕ → F), w.WF → w'.WF →
    k.callOK n c w.heap → k.callOK n c' w'.heap → k.fn c = k.fn c' → k.CosineForward (k.fn c) →
    Arr w.heap (k.input c) n (fun t => ![d t, fofNat 0]) → Arr w'.heap (k.input c') n (fun t => ![d' t, fofNat 0]) →
    (∀ t < n, r false (d t) (d' (n - 1 - t))) →
    ∃ out out' : ℕ → F,
      ComputesIn (k.cls (Xmm F) thr) n [c] w (k.writes n c) (k.output c) n (fun t => ![out t, fofNat 0]) ∧
      ComputesIn (k.cls (Xmm F) thr) n [c'] w' (k.writes n c') (k.output c') n (fun t => ![out' t, fofNat 0]) ∧
      ∀ t < n, r (decide (t % 2 = 1)) (out t) (out' t)

/-- The other direction: if the coefficients `d` are those of `d'`, the odd ones with the opposite sign, the inverse cosine
transform of `d` is that of `d'` in reverse. -/
def CosineAlternate {F : Type} [FArith F] (i : Target) (thr : Thr) (k : Kind) (n : ℕ) (r : Bool → F → F → Prop) : Prop :=
  letI := i.arith F
  ∀ (w w' : World (Xmm F)) (c c' : (k.cls (Xmm F) thr).Call) (d d' : ℕ → F), w.WF → w'.WF →
    k.callOK n c w.heap → k.callOK n c' w'.heap → k.fn c = k.fn c' → k.CosineInverse (k.fn c) →
    Arr w.heap (k.input c) n (fun t => ![d t, fofNat 0]) → Arr w'.heap (k.input c') n (fun t => ![d' t, fofNat 0]) →
    (∀ t < n, r (decide (t % 2 = 1)) (d t) (d' t)) →
    ∃ out out' : ℕ → F,
      ComputesIn (k.cls (Xmm F) thr) n [c] w (k.writes n c) (k.output c) n (fun t => ![out t, fofNat 0]) ∧
      ComputesIn (k.cls (Xmm F) thr) n [c'] w' (k.writes n c') (k.output c') n (fun t => ![out' t, fofNat 0]) ∧
      ∀ t < n, r false (out t) (out' (n - 1 - t))

end OTFFT
