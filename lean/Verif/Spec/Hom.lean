/-
Relations between doubles that the arithmetic of the transforms preserves, and IEEE 754 arithmetic with signed zeros,
infinities and NaN as an example.
-/
import Verif.Spec.Libm
import Verif.Model.Simd
import Verif.Spec.Pool
import Verif.Spec.Api

namespace OTFFT

/-- `r` holds between zero and itself and is preserved by the operations of the library on data: sums, differences,
negation, products with and quotients by a common number, multiply-add with a common factor. -/
structure Preserved {F : Type} [FArith F] (r : F → F → Prop) : Prop where
  zero : r (fofNat 0) (fofNat 0)
  neg : ∀ a a', r a a' → r (fneg a) (fneg a')
  add : ∀ a a' b b', r a a' → r b b' → r (fadd a b) (fadd a' b')
  sub : ∀ a a' b b', r a a' → r b b' → r (fsub a b) (fsub a' b')
  mul_left : ∀ c a a', r a a' → r (fmul c a) (fmul c a')
  mul_right : ∀ c a a', r a a' → r (fmul a c) (fmul a' c)
  div : ∀ c a a', r a a' → r (fdiv a c) (fdiv a' c)
  fma_left : ∀ c a a' b b', r a a' → r b b' → r (ffma c a b) (ffma c a' b')
  fma_right : ∀ c a a' b b', r a a' → r b b' → r (ffma a c b) (ffma a' c b')
  fms_left : ∀ c a a' b b', r a a' → r b b' → r (ffms c a b) (ffms c a' b')
  fms_right : ∀ c a a' b b', r a a' → r b b' → r (ffms a c b) (ffms a' c b')

/-- `bad` is kept by the operations of the library on data: the result is bad as soon as an operand is bad. -/
structure Absorbing {F : Type} [FArith F] (bad : F → Prop) : Prop where
  neg : ∀ a, bad a → bad (fneg a)
  add : ∀ a b, bad a ∨ bad b → bad (fadd a b)
  sub : ∀ a b, bad a ∨ bad b → bad (fsub a b)
  mul : ∀ a b, bad a ∨ bad b → bad (fmul a b)
  div : ∀ a b, bad a → bad (fdiv a b)
  fma : ∀ a b c, bad a ∨ bad b ∨ bad c → bad (ffma a b c)
  fms : ∀ a b c, bad a ∨ bad b ∨ bad c → bad (ffms a b c)

/-- both components are related -/
def Both {F : Type} (r : F → F → Prop) (a b : Xmm F) : Prop := r (a 0) (b 0) ∧ r (a 1) (b 1)

/-- `a` and `b` agree in the components (real or imaginary part) in which `c` is not bad -/
def AgreeGood {F : Type} (bad : F → Prop) (c : Xmm F) (a b : ℂ) : Prop :=
  (bad (c 0) ∨ a.re = b.re) ∧ (bad (c 1) ∨ a.im = b.im)

/-- The transforms of class `k` and length `n`, compiled for `i`, carry the relation `R` over from the input to the result:
two calls of the same function (on objects of their own, in memories of their own) whose inputs are related element by
element give results that are related element by element. -/
def CarriesOver {F : Type} [FArith F] (i : Target) (thr : Thr) (k : Kind) (n : ℕ) (R : Xmm F → Xmm F → Prop) : Prop :=
  letI := i.arith F
  ∀ (w w' : World (Xmm F)) (c c' : (k.cls (Xmm F) thr).Call) (v v' : ℕ → Xmm F), w.WF → w'.WF →
    k.callOK n c w.heap → k.callOK n c' w'.heap → k.fn c = k.fn c' →
    Arr w.heap (k.input c) (k.need n c) v → Arr w'.heap (k.input c') (k.need n c') v' →
    (∀ t < k.need n c, R (v t) (v' t)) →
    ∃ out out' : ℕ → Xmm F,
      ComputesIn (k.cls (Xmm F) thr) n [c] w (k.writes n c) (k.output c) n out ∧
      ComputesIn (k.cls (Xmm F) thr) n [c'] w' (k.writes n c') (k.output c') n out' ∧
      ∀ t < n, R (out t) (out' t)

/-! ### rounded real numbers -/

/-- Real numbers with an arithmetic that rounds every result with `ρ`: no bounds on the exponent. -/
structure Rounded (ρ : ℝ → ℝ) where
  val : ℝ
deriving Inhabited

noncomputable instance [Libm] (ρ : ℝ → ℝ) : FArith (Rounded ρ) where
  fadd a b := ⟨ρ (a.val + b.val)⟩
  fsub a b := ⟨ρ (a.val - b.val)⟩
  fmul a b := ⟨ρ (a.val * b.val)⟩
  fdiv a b := ⟨ρ (a.val / b.val)⟩
  fneg a := ⟨-a.val⟩
  fsqrt a := ⟨ρ (√a.val)⟩
  fcos a := ⟨ρ (Libm.cos a.val)⟩
  fsin a := ⟨ρ (Libm.sin a.val)⟩
  fpi := ⟨ρ Real.pi⟩
  fofNat n := ⟨n⟩
  ffma a b c := ⟨ρ (a.val * b.val + c.val)⟩
  ffms a b c := ⟨ρ (a.val * b.val - c.val)⟩
  sqrt1_2 := ⟨ρ litSqrt1_2⟩
  h1x := ⟨ρ litH1X⟩
  h1y := ⟨ρ litH1Y⟩

/-! ### IEEE 754: signed zeros, infinities, NaN -/

/-- A double: NaN, an infinity with its sign bit, or a number; if the number is 0, `z` is its sign bit (otherwise `z` is
not used). -/
inductive Dbl where
  | nan
  | inf (s : Bool)
  | num (x : ℝ) (z : Bool)
deriving Inhabited

namespace Dbl

open Classical in
/-- the sign bit -/
noncomputable def sgn : Dbl → Bool
  | nan => false
  | inf s => s
  | num x z => if x = 0 then z else decide (x < 0)

open Classical in
/-- Result of an operation whose exact result is `x`: `x` rounded with `ρ`, an infinity if that exceeds `Ω`. If the
exact result is 0, the sign bit is `z`; if it is rounded to 0, it has the sign of `x`. -/
noncomputable def rnd (ρ : ℝ → ℝ) (Ω x : ℝ) (z : Bool) : Dbl :=
  if Ω < |ρ x| then inf (decide (x < 0)) else num (ρ x) (if x = 0 then z else decide (x < 0))

/-- sign of an exact zero sum: −0 only if both terms are −0 -/
noncomputable def zsum (a b : Dbl) : Bool := a.sgn && b.sgn

variable (ρ : ℝ → ℝ) (Ω : ℝ)

noncomputable def add : Dbl → Dbl → Dbl
  | nan, _ => nan
  | _, nan => nan
  | inf s, inf t => if s = t then inf s else nan
  | inf s, num _ _ => inf s
  | num _ _, inf t => inf t
  | a@(num x _), b@(num y _) => rnd ρ Ω (x + y) (zsum a b)

def neg : Dbl → Dbl
  | nan => nan
  | inf s => inf (!s)
  | num x z => num (-x) (!z)

open Classical in
noncomputable def mul : Dbl → Dbl → Dbl
  | nan, _ => nan
  | _, nan => nan
  | inf s, inf t => inf (s != t)
  | inf s, b@(num y _) => if y = 0 then nan else inf (s != b.sgn)
  | a@(num x _), inf t => if x = 0 then nan else inf (a.sgn != t)
  | a@(num x _), b@(num y _) => rnd ρ Ω (x * y) (a.sgn != b.sgn)

open Classical in
noncomputable def div : Dbl → Dbl → Dbl
  | nan, _ => nan
  | _, nan => nan
  | inf _, inf _ => nan
  | inf s, b@(num _ _) => inf (s != b.sgn)
  | a@(num _ _), inf t => num 0 (a.sgn != t)
  | a@(num x _), b@(num y _) =>
      if y = 0 then (if x = 0 then nan else inf (a.sgn != b.sgn)) else rnd ρ Ω (x / y) (a.sgn != b.sgn)

open Classical in
/-- multiply-add with one rounding -/
noncomputable def fma : Dbl → Dbl → Dbl → Dbl
  | a@(num x _), b@(num y _), c@(num t _) =>
      rnd ρ Ω (x * y + t) ((a.sgn != b.sgn) && c.sgn)
  | num _ _, num _ _, c => c
  -- a factor is an infinity or NaN: so is the product, or it is NaN
  | a, b, c => add ρ Ω (mul ρ Ω a b) c

open Classical in
/-- a function of one argument; NaN outside its domain `D` -/
noncomputable def fn1 (f : ℝ → ℝ) (D : Set ℝ) : Dbl → Dbl
  | num x z => if x ∈ D then rnd ρ Ω (f x) z else nan
  | inf _ => nan
  | nan => nan

noncomputable def sqrt : Dbl → Dbl
  | inf false => inf false
  | a => fn1 ρ Ω Real.sqrt {x | 0 ≤ x} a

end Dbl

/-- The doubles with arithmetic that rounds with `ρ` and overflows beyond `Ω`. -/
structure Ieee (ρ : ℝ → ℝ) (Ω : ℝ) where
  d : Dbl
deriving Inhabited

noncomputable instance [Libm] (ρ : ℝ → ℝ) (Ω : ℝ) : FArith (Ieee ρ Ω) where
  fadd a b := ⟨Dbl.add ρ Ω a.d b.d⟩
  fsub a b := ⟨Dbl.add ρ Ω a.d b.d.neg⟩
  fmul a b := ⟨Dbl.mul ρ Ω a.d b.d⟩
  fdiv a b := ⟨Dbl.div ρ Ω a.d b.d⟩
  fneg a := ⟨a.d.neg⟩
  fsqrt a := ⟨Dbl.sqrt ρ Ω a.d⟩
  fcos a := ⟨Dbl.fn1 ρ Ω Libm.cos Set.univ a.d⟩
  fsin a := ⟨Dbl.fn1 ρ Ω Libm.sin Set.univ a.d⟩
  fpi := ⟨Dbl.rnd ρ Ω Real.pi false⟩
  fofNat n := ⟨Dbl.rnd ρ Ω n false⟩
  ffma a b c := ⟨Dbl.fma ρ Ω a.d b.d c.d⟩
  ffms a b c := ⟨Dbl.fma ρ Ω a.d b.d c.d.neg⟩
  sqrt1_2 := ⟨Dbl.rnd ρ Ω litSqrt1_2 false⟩
  h1x := ⟨Dbl.rnd ρ Ω litH1X false⟩
  h1y := ⟨Dbl.rnd ρ Ω litH1Y false⟩

/-- equal up to the sign of zeros -/
def Dbl.same : Dbl → Dbl → Prop
  | nan, nan => True
  | inf s, inf t => s = t
  | num x _, num y _ => x = y
  | _, _ => False

/-- equal up to the sign of zeros -/
def Ieee.same {ρ : ℝ → ℝ} {Ω : ℝ} (a b : Ieee ρ Ω) : Prop := a.d.same b.d

/-- `b` is `-a`, up to the sign of zeros -/
def Ieee.opp {ρ : ℝ → ℝ} {Ω : ℝ} (a b : Ieee ρ Ω) : Prop := a.d.neg.same b.d

/-- NaN -/
def Ieee.isNaN {ρ : ℝ → ℝ} {Ω : ℝ} (a : Ieee ρ Ω) : Prop := a.d = .nan

/-- NaN or an infinity -/
def Ieee.notFinite {ρ : ℝ → ℝ} {Ω : ℝ} (a : Ieee ρ Ω) : Prop := ∀ x z, a.d ≠ .num x z

end OTFFT
