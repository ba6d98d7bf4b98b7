/-
C50: relations between inputs that the transforms carry over to the outputs.
-/
import Verif.Proof.Newton
import Verif.Proof.HomTarget
import Verif.Proof.Dbl
import Verif.Proof.Foot
import Verif.Props.Accuracy
import Verif.Props.Simd
import Verif.Props.Complex

namespace OTFFT.Props

/-- lengths for which `Kind.out` is meaningful -/
def lenOK : Kind → ℕ → Prop
  | .real, n | .dct, n | .dct0, n => RealLen n
  | .bluestein, n => n ≤ 2 ^ 29
  | .complex, _ | .fft0, _ => True

/-- the number of input cells that matter -/
def needOf : (k : Kind) → ℕ → k.Fn → ℕ
  | .real, n, e => let e : Entry := e; rfftNeed e n
  | .complex, n, _ | .dct, n, _ | .bluestein, n, _ | .fft0, n, _ | .dct0, n, _ => n

section
variable {E A F C : Type} [DArith E] [CArith E A] [DArith F] [CArith F C] {r : E → F → F → Prop} {R : A → C → C → Prop}

theorem lenOK_of {thr : Thr} {k : Kind} {n : ℕ} {c : (k.cls C thr).Call} {h : Heap C} (ok : k.callOK n c h) : lenOK k n := by
  cases k
  · exact trivial
  · exact (show realOK n c h from ok).1
  · exact (show dctOK n c h from ok).1
  · exact (show blueOK n c h from ok).2.1
  · exact trivial
  · exact (show rawDCTOK n c h from ok).1

theorem need_eq {thr : Thr} (k : Kind) (n : ℕ) (c : (k.cls C thr).Call) : k.need n c = needOf k n (k.fn c) := by
  cases k <;> try rfl
  obtain ⟨e, p⟩ := (show Entry × Ptr × Ptr from c)
  show realNeed e n = rfftNeed e n
  cases e <;> rfl

theorem out_hom [Inhabited A] [Inhabited C] (L : HomLaws r R) (thr : Thr) (k : Kind) {n : ℕ} (hn : lenOK k n) (f : k.Fn)
    {u : ℕ → A} {v v' : ℕ → C} (h : ∀ t < needOf k n f, R (u t) (v t) (v' t)) :
    ∀ t < n, R (k.out A thr n f u t) (k.out C thr n f v t) (k.out C thr n f v' t) := by
  cases k
  · exact L.fftOut_hom h
  · exact L.rfftOut_hom hn f h
  · exact L.dctOut_hom hn f h
  · exact L.blueOut_hom hn f h
  · exact L.fftOut_hom h
  · exact L.dctOut_hom hn f h

end

section
variable {F : Type} [FArith F] [Inhabited F]

theorem pres_of {r : F → F → Prop} (P : Preserved r) : Pres (E := F) (F := F) fun _ a b => r a b where
  zero := P.zero
  neg := P.neg _ _
  add := P.add _ _ _ _
  sub := P.sub _ _ _ _
  mulL := P.mul_left _ _ _
  mulR := P.mul_right _ _ _
  div := P.div _ _ _
  fmaL := P.fma_left _ _ _ _ _
  fmaR := P.fma_right _ _ _ _ _
  fmsL := P.fms_left _ _ _ _ _
  fmsR := P.fms_right _ _ _ _ _

/-- C50: let `r` be a relation between doubles that the operations on data preserve (sums, differences, negation, products
with and quotients by a common number, multiply-add). If the elements of two inputs are related component by component, so
are the elements of the results, for every class, function, length and instruction set, and whatever rounding does. -/
theorem C50_preserved {r : F → F → Prop} (P : Preserved r) (i : Target) (thr : Thr) (k : Kind) {n : ℕ} (hn : k.setupOK n) :
    CarriesOver i thr k n (Both r) := by
  letI := i.arith F
  intro w w' c c' v v' hw hw' ok ok' hf hv hv' h
  refine ⟨_, _, Kind.computes thr hw hn ok hv, Kind.computes thr hw' hn ok' hv', ?_⟩
  rw [← hf]
  rw [need_eq] at h
  exact out_hom (u := v) (Target.homLaws (pres_of P) i (Equiv.refl _) (Equiv.refl _)) thr k (lenOK_of ok) (k.fn c) h

end

/-! ### Instances -/

variable [Libm]

section ieee
variable {ρ : ℝ → ℝ} {Ω : ℝ}

theorem preserved_opp (h0 : 0 ≤ Ω) (hρ : ∀ x, ρ (-x) = -ρ x) : Preserved (Ieee.opp (ρ := ρ) (Ω := Ω)) := by
  have hz : ρ 0 = 0 := by have := hρ 0; rw [neg_zero] at this; linarith
  have h := Ieee.preserved (f := true) (fun _ => ⟨h0, hρ⟩) ⟨h0, hz⟩
  have e : (fun a b : Ieee ρ Ω => Dbl.rel true a.d b.d) = Ieee.opp := by
    funext a b; exact propext (Dbl.rel_opp a.d b.d)
  rw [e] at h
  exact h

theorem preserved_same (h0 : 0 ≤ Ω) (hz : ρ 0 = 0) : Preserved (Ieee.same (ρ := ρ) (Ω := Ω)) := by
  have h := Ieee.preserved (f := false) (ρ := ρ) (Ω := Ω) (fun h => by cases h) ⟨h0, hz⟩
  have e : (fun a b : Ieee ρ Ω => Dbl.rel false a.d b.d) = Ieee.same := by
    funext a b; exact propext (Dbl.rel_same a.d b.d)
  rw [e] at h
  exact h

/-- C50: in IEEE 754 arithmetic with a symmetric rounding, the transform of `-x` is exactly minus the transform of `x`, also
if something overflows, and for inputs with infinities and NaNs; only signs of zeros may differ. -/
theorem C50_negate (h0 : 0 ≤ Ω) (hρ : ∀ x, ρ (-x) = -ρ x) (i : Target) (thr : Thr) (k : Kind) {n : ℕ} (hn : k.setupOK n) :
    CarriesOver (F := Ieee ρ Ω) i thr k n (Both Ieee.opp) := C50_preserved (preserved_opp h0 hρ) i thr k hn

/-- C50: the signs of zeros in the input have an influence on nothing but the signs of zeros in the result. -/
theorem C50_zero_sign (h0 : 0 ≤ Ω) (hz : ρ 0 = 0) (i : Target) (thr : Thr) (k : Kind) {n : ℕ} (hn : k.setupOK n) :
    CarriesOver (F := Ieee ρ Ω) i thr k n (Both Ieee.same) := C50_preserved (preserved_same h0 hz) i thr k hn

/-- C50: replacing parts of the input by NaN turns some parts of the result into NaN and does not change the others: a NaN
never turns a number into another one. -/
theorem C50_nan (i : Target) (thr : Thr) (k : Kind) {n : ℕ} (hn : k.setupOK n) :
    CarriesOver (F := Ieee ρ Ω) i thr k n (Both fun a b => a = b ∨ b.isNaN) :=
  C50_preserved Ieee.absorb_nan.preserved i thr k hn

/-- C50: if rounding commutes with the multiplication by `s`, as it does for powers of two, the transform of `s·x` is exactly
`s` times the transform of `x` (no overflow and no underflow here). -/
theorem C50_scale {s : ℝ} (hs : ∀ x, ρ (s * x) = s * ρ x) (i : Target) (thr : Thr) (k : Kind) {n : ℕ} (hn : k.setupOK n) :
    CarriesOver (F := Rounded ρ) i thr k n (Both fun a b => b.val = s * a.val) :=
  C50_preserved (Rounded.preserved hs) i thr k hn

end ieee

/-! ### Examples -/

/-- twice the input: exactly twice the transform of length 12 -/
example (thr : Thr) (v : ℕ → Xmm (Rounded rnd53)) : letI := sse2Build.arith (Rounded rnd53)
    ∃ out out' : ℕ → Xmm (Rounded rnd53),
      ComputesIn (complexFFT (Xmm (Rounded rnd53)) thr) 12 [(.fwd, Ptr.base 1)] (oneArray 12 v) (Region (Ptr.base 1) 12) (Ptr.base 1) 12 out ∧
      ComputesIn (complexFFT (Xmm (Rounded rnd53)) thr) 12 [(.fwd, Ptr.base 1)]
        (oneArray 12 fun t => ![⟨2 * (v t 0).val⟩, ⟨2 * (v t 1).val⟩]) (Region (Ptr.base 1) 12) (Ptr.base 1) 12 out' ∧
      ∀ t < 12, (out' t 0).val = 2 * (out t 0).val ∧ (out' t 1).val = 2 * (out t 1).val := by
  have ok := oneArray_ok 12 v
  have ok' := oneArray_ok 12 fun t => (![⟨2 * (v t 0).val⟩, ⟨2 * (v t 1).val⟩] : Xmm (Rounded rnd53))
  have h12 := validLen_of_le (n := 12) (by omega) (by omega)
  exact C50_scale (fun x => by simpa using rnd53_scale 1 x) sse2Build thr .complex (show intLen (12 : ℕ) from ⟨by norm_num, by norm_num⟩)
    (oneArray 12 v) (oneArray 12 _) (.fwd, Ptr.base 1) (.fwd, Ptr.base 1) v _ ok.wf ok'.wf ⟨h12, ok.arr.filled⟩ ⟨h12, ok'.arr.filled⟩ rfl
    ok.arr ok'.arr (fun t _ => ⟨rfl, rfl⟩)

/-- the input of a cosine transform of length 10 that contains infinities or NaN, and its opposite -/
example (thr : Thr) (d : ℕ → Dbl64) : letI := avxBuild.arith Dbl64
    ∃ out out' : ℕ → Xmm Dbl64,
      ComputesIn (realDCT (Xmm Dbl64) thr) 10 [(.fwd0, Ptr.base 1)] (oneArray 10 fun t => ![d t, ⟨.num 0 false⟩])
        (Region (Ptr.base 1) 10) (Ptr.base 1) 10 out ∧
      ComputesIn (realDCT (Xmm Dbl64) thr) 10 [(.fwd0, Ptr.base 1)] (oneArray 10 fun t => ![fneg (d t), ⟨.num 0 false⟩])
        (Region (Ptr.base 1) 10) (Ptr.base 1) 10 out' ∧
      ∀ t < 10, (out t 0).opp (out' t 0) := by
  have ok := oneArray_ok 10 fun t => (![d t, ⟨.num 0 false⟩] : Xmm Dbl64)
  have ok' := oneArray_ok 10 fun t => (![fneg (d t), ⟨.num 0 false⟩] : Xmm Dbl64)
  have h5 := validLen_of_le (n := 5) (by omega) (by omega)
  have h10 : RealLen 10 := .inr ⟨5, rfl, h5, by norm_num⟩
  have hin : ∀ t < 10, Both Ieee.opp (![d t, ⟨.num 0 false⟩] : Xmm Dbl64) ![fneg (d t), ⟨.num 0 false⟩] := fun t _ => ⟨by
    show Dbl.same (d t).d.neg (d t).d.neg
    cases (d t).d <;> simp [Dbl.neg, Dbl.same], by
    show (-0 : ℝ) = 0
    simp⟩
  obtain ⟨out, out', h, h', e⟩ := C50_negate maxDbl_nonneg rnd64_neg avxBuild thr .dct (n := 10) (show dctLen (10 : ℕ) from ⟨by norm_num, by norm_num⟩)
    (oneArray 10 _) (oneArray 10 _) (.fwd0, Ptr.base 1) (.fwd0, Ptr.base 1) _ _ ok.wf ok'.wf ⟨h10, ok.arr.filled⟩ ⟨h10, ok'.arr.filled⟩ rfl
    ok.arr ok'.arr hin
  exact ⟨out, out', h, h', fun t ht => (e t ht).1⟩

/-- a NaN in element 3: the parts of the transform of length 12 that are not NaN are unchanged -/
example (thr : Thr) (v : ℕ → Xmm Dbl64) : letI := avxBuild.arith Dbl64
    ∃ out out' : ℕ → Xmm Dbl64,
      ComputesIn (complexFFT (Xmm Dbl64) thr) 12 [(.inv, Ptr.base 1)] (oneArray 12 v) (Region (Ptr.base 1) 12) (Ptr.base 1) 12 out ∧
      ComputesIn (complexFFT (Xmm Dbl64) thr) 12 [(.inv, Ptr.base 1)] (oneArray 12 fun t => if t = 3 then ![v t 0, ⟨.nan⟩] else v t)
        (Region (Ptr.base 1) 12) (Ptr.base 1) 12 out' ∧
      ∀ t < 12, (out t 0 = out' t 0 ∨ (out' t 0).isNaN) ∧ (out t 1 = out' t 1 ∨ (out' t 1).isNaN) := by
  have ok := oneArray_ok 12 v
  have ok' := oneArray_ok 12 fun t => (if t = 3 then ![v t 0, ⟨.nan⟩] else v t : Xmm Dbl64)
  have h12 := validLen_of_le (n := 12) (by omega) (by omega)
  exact C50_nan avxBuild thr .complex (show intLen (12 : ℕ) from ⟨by norm_num, by norm_num⟩)
    (oneArray 12 v) (oneArray 12 _) (.inv, Ptr.base 1) (.inv, Ptr.base 1) v _ ok.wf ok'.wf ⟨h12, ok.arr.filled⟩ ⟨h12, ok'.arr.filled⟩ rfl
    ok.arr ok'.arr (fun t _ => by
      by_cases h : t = 3
      · simp only [if_pos h]; exact ⟨.inl rfl, .inr rfl⟩
      · simp only [if_neg h]; exact ⟨.inl rfl, .inl rfl⟩)

/-- all zeros negative or all positive: the results differ in signs of zeros only (Bluestein, length 7) -/
example (thr : Thr) : letI := sse2Build.arith Dbl64
    ∃ out out' : ℕ → Xmm Dbl64,
      ComputesIn (bluesteinFFT (Xmm Dbl64) thr) 7 [(.fwd, Ptr.base 1)] (oneArray 7 fun _ => ![⟨.num 0 true⟩, ⟨.num 0 true⟩])
        (Region (Ptr.base 1) 7) (Ptr.base 1) 7 out ∧
      ComputesIn (bluesteinFFT (Xmm Dbl64) thr) 7 [(.fwd, Ptr.base 1)] (oneArray 7 fun _ => ![⟨.num 0 false⟩, ⟨.num 0 false⟩])
        (Region (Ptr.base 1) 7) (Ptr.base 1) 7 out' ∧
      ∀ t < 7, (out t 0).same (out' t 0) ∧ (out t 1).same (out' t 1) := by
  have ok := oneArray_ok 7 fun _ => (![⟨.num 0 true⟩, ⟨.num 0 true⟩] : Xmm Dbl64)
  have ok' := oneArray_ok 7 fun _ => (![⟨.num 0 false⟩, ⟨.num 0 false⟩] : Xmm Dbl64)
  have hz := rnd64_zero
  exact C50_zero_sign maxDbl_nonneg hz sse2Build thr .bluestein (n := 7) (show blueLen (7 : ℕ) by unfold blueLen; norm_num)
    (oneArray 7 _) (oneArray 7 _) (.fwd, Ptr.base 1) (.fwd, Ptr.base 1) _ _ ok.wf ok'.wf ⟨by norm_num, by norm_num, ok.arr.filled⟩
    ⟨by norm_num, by norm_num, ok'.arr.filled⟩ rfl ok.arr ok'.arr (fun t _ => ⟨rfl, rfl⟩)

end OTFFT.Props
